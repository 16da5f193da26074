import Verif.Proof.Outcome
import Verif.Spec.History

/-!
What a call cannot change: the value of a node, and everything about a node that is not the parent of
anything. Tokens never become one. This holds for arbitrary programs with several builders.
-/

namespace Syntree

variable {α : Type} {fl : Flavor}

/-- No node has `i` as its parent. -/
def NoKids (ns : List (Links α)) (i : Nat) : Prop :=
  ∀ (j : Nat) (l : Links α), ns[j]? = some l → l.parent ≠ some i

/-- Values are kept, and the nodes in `B` keep their span and their first child and do not become a
parent. -/
structure Keeps (B : Nat → Prop) (ns ns' : List (Links α)) : Prop where
  get : ∀ (i : Nat) (l : Links α), ns[i]? = some l → ∃ l', ns'[i]? = some l' ∧ l'.data = l.data ∧
    (B i → l'.span = l.span ∧ l'.first = l.first)
  kids : ∀ i, B i → NoKids ns i → NoKids ns' i

variable {B : Nat → Prop}

theorem Keeps.refl (ns : List (Links α)) : Keeps B ns ns :=
  ⟨fun _ l h => ⟨l, h, rfl, fun _ => ⟨rfl, rfl⟩⟩, fun _ _ h => h⟩

theorem Keeps.trans {a b c : List (Links α)} (h : Keeps B a b) (h' : Keeps B b c) : Keeps B a c := by
  constructor
  · intro i l hl
    obtain ⟨l1, e1, d1, k1⟩ := h.get i l hl
    obtain ⟨l2, e2, d2, k2⟩ := h'.get i l1 e1
    exact ⟨l2, e2, d2.trans d1, fun hb =>
      ⟨(k2 hb).1.trans (k1 hb).1, (k2 hb).2.trans (k1 hb).2⟩⟩
  · exact fun i hb hn => h'.kids i hb (h.kids i hb hn)

theorem Keeps.modify (ns : List (Links α)) (id : Nat) (f : Links α → Links α)
    (hd : ∀ l, (f l).data = l.data) (hp : ∀ l, (f l).parent = l.parent)
    (hb : B id → ∀ l, (f l).span = l.span ∧ (f l).first = l.first) :
    Keeps B ns (ns.modify id f) := by
  constructor
  · intro i l hl
    rw [List.getElem?_modify, hl]
    by_cases h : id = i
    · subst h
      exact ⟨f l, by simp, hd l, fun h => hb h l⟩
    · exact ⟨l, by simp [h], rfl, fun _ => ⟨rfl, rfl⟩⟩
  · intro i _ hn j l hl
    rw [List.getElem?_modify] at hl
    cases hj : ns[j]? with
    | none => rw [hj] at hl; simp at hl
    | some l0 =>
      rw [hj] at hl
      have := hn j l0 hj
      split at hl <;> simp at hl <;> subst hl
      · rw [hp]; exact this
      · exact this

theorem Keeps.modifyOpt (t : Tree α) (id : Option Nat) (f : Links α → Links α)
    (hd : ∀ l, (f l).data = l.data) (hp : ∀ l, (f l).parent = l.parent)
    (hb : ∀ i, id = some i → B i → ∀ l, (f l).span = l.span ∧ (f l).first = l.first) :
    Keeps B t.nodes (t.modifyOpt id f).nodes := by
  cases id with
  | none => exact .refl _
  | some i => exact .modify _ _ _ hd hp (hb i rfl)

theorem Keeps.push (ns : List (Links α)) (l : Links α) (hb : ∀ i, B i → l.parent ≠ some i) :
    Keeps B ns (ns ++ [l]) := by
  constructor
  · intro i x hx
    exact ⟨x, by rw [List.getElem?_append_left (List.getElem?_eq_some_iff.1 hx).1]; exact hx, rfl,
      fun _ => ⟨rfl, rfl⟩⟩
  · intro i hi hn j x hx
    rw [List.getElem?_append] at hx
    split at hx
    · exact hn j x hx
    · have : x = l := by simpa using List.mem_of_getElem? hx
      rw [this]; exact hb i hi

theorem Keeps.set {ns : List (Links α)} {id : Nat} {l l' : Links α} (hl : ns[id]? = some l)
    (hd : l'.data = l.data) (hs : l'.span = l.span) (hf : l'.first = l.first)
    (hb : ∀ i, B i → l'.parent ≠ some i) : Keeps B ns (ns.set id l') := by
  have hlt := (List.getElem?_eq_some_iff.1 hl).1
  constructor
  · intro i x hx
    rw [List.getElem?_set]
    by_cases h : id = i
    · subst h
      rw [hl] at hx
      obtain rfl := Option.some.inj hx
      exact ⟨l', by simp [hlt], hd, fun _ => ⟨hs, hf⟩⟩
    · exact ⟨x, by simp [h, hx], rfl, fun _ => ⟨rfl, rfl⟩⟩
  · intro i hi hn j x hx
    rw [List.getElem?_set] at hx
    split at hx
    · rename_i e
      subst e
      simp only [hlt, if_true, Option.some.injEq] at hx
      rw [← hx]; exact hb i hi
    · exact hn j x hx

theorem Keeps.restructure {p : Nat} (hb : ¬ B p) : ∀ (fuel : Nat) (ns : List (Links α)) (cur : Nat),
    Keeps B ns (restructure p fuel ns cur).1 := by
  intro fuel
  induction fuel with
  | zero => intro ns cur; exact .refl _
  | succ fuel ih =>
    intro ns cur
    unfold Syntree.restructure
    cases hn : ns[cur]? with
    | none => exact .refl _
    | some l =>
      have h1 : Keeps B ns (ns.set cur { l with parent := some p }) :=
        .set hn rfl rfl rfl (by
          intro i hi h
          simp only [Option.some.injEq] at h
          exact hb (h ▸ hi))
      simp only
      split
      · exact h1.trans (ih _ _)
      · exact h1

theorem Keeps.reparent {newId id : Nat} {links : Links α} {ns : List (Links α)} (hb : ¬ B newId)
    (hl : ns[id]? = some links) : Keeps B ns (reparent newId id links ns).1 := by
  unfold Syntree.reparent
  have h1 : Keeps B ns (ns.set id { links with parent := some newId, prev := none }) :=
    .set hl rfl rfl rfl (by
      intro i hi h
      simp only [Option.some.injEq] at h
      exact hb (h ▸ hi))
  dsimp only
  split
  · rename_i next _
    have h2 := Keeps.restructure hb ((ns.set id { links with parent := some newId, prev := none }).length
      + 1) (ns.set id { links with parent := some newId, prev := none }) next
    split <;> rename_i e <;> rw [e] at h2 <;> exact h1.trans h2
  · exact h1

theorem Keeps.relink {t : Tree α} {id newId : Nat} {parent prev : Option Nat} {new : Links α}
    (hb : ∀ i, B i → parent ≠ some i) (hn : new.parent = parent) :
    Keeps B t.nodes (t.relink id newId parent prev new).nodes := by
  unfold Tree.relink
  simp only [Tree.push]
  refine Keeps.trans ?_ (Keeps.push _ _ (by rw [hn]; exact hb))
  refine Keeps.trans (Keeps.modifyOpt t parent (fun p =>
    { p with
      first := if p.first = some id then some newId else p.first
      last := if p.last = some id then some newId else p.last }) (fun _ => rfl) (fun _ => rfl) ?_)
    (Keeps.modifyOpt _ prev (fun p => { p with next := some newId }) (fun _ => rfl) (fun _ => rfl) (fun _ _ _ _ => ⟨rfl, rfl⟩))
  intro i hi hbi
  exact absurd hi (hb i hbi)

/-- The nodes of a builder that are not the parent of anything, and not being built. -/
def Done (b : Builder α) (i : Nat) : Prop :=
  i < b.tree.nodes.length ∧ b.parent ≠ some i ∧ NoKids b.tree.nodes i

/-- What a call leaves alone. -/
structure Leaves (b b' : Builder α) : Prop where
  keeps : Keeps (Done b) b.tree.nodes b'.tree.nodes
  parent : ∀ i, Done b i → b'.parent ≠ some i

theorem Leaves.refl (b : Builder α) : Leaves b b := ⟨.refl _, fun _ h => h.2.1⟩

theorem Leaves.done {b b' : Builder α} (h : Leaves b b') {i : Nat} (hi : Done b i) : Done b' i := by
  refine ⟨?_, h.parent i hi, h.keeps.kids i hi hi.2.2⟩
  obtain ⟨l, hl⟩ : ∃ l, b.tree.nodes[i]? = some l := ⟨_, List.getElem?_eq_getElem hi.1⟩
  obtain ⟨l', e, _⟩ := h.keeps.get i l hl
  exact (List.getElem?_eq_some_iff.1 e).1

theorem ptrNew_len {w n m : Nat} (h : ptrNew w n = some m) : m = n := by
  rw [ptrNew_eq] at h
  split at h
  · exact (Option.some.inj h).symm
  · simp at h

theorem Keeps.insert (b : Builder α) (d : α) (sp : Span) (hB : ∀ i, B i → b.parent ≠ some i) :
    Keeps B b.tree.nodes (b.insert fl d sp).1.tree.nodes ∧ (b.insert fl d sp).1.parent = b.parent := by
  unfold Builder.insert
  split
  · exact ⟨.refl _, rfl⟩
  · refine ⟨?_, rfl⟩
    simp only
    refine Keeps.trans ?_ (Keeps.modifyOpt _ _ _ (fun _ => rfl) (fun _ => rfl)
      (fun _ _ _ _ => ⟨rfl, rfl⟩))
    have h1 := Keeps.push (B := B) b.tree.nodes (Links.mk d sp b.parent b.sibling none none none) hB
    cases hp : b.parent with
    | none => rw [hp] at h1; exact h1
    | some id =>
      rw [hp] at h1
      exact h1.trans (Keeps.modify _ _ _ (fun _ => rfl) (fun _ => rfl)
        (fun hb => absurd hp (hB id hb)))

/-- The node that has been put in. -/
theorem insert_new {b b' : Builder α} {d : α} {sp : Span} {n : Nat} (hw : ∀ i, b.parent = some i →
      i < b.tree.nodes.length) (hs : ∀ i, b.sibling = some i → i < b.tree.nodes.length)
    (hk : NoKids b.tree.nodes b.tree.nodes.length)
    (h : b.insert fl d sp = (b', .ok n)) :
    n = b.tree.nodes.length ∧ Done b' n ∧
      b'.tree.nodes[n]? = some ⟨d, sp, b.parent, b.sibling, none, none, none⟩ := by
  unfold Builder.insert at h
  split at h
  · simp at h
  · rename_i new hn
    have hnew : new = b.tree.nodes.length := ptrNew_len hn
    simp only [Prod.mk.injEq, Except.ok.injEq] at h
    obtain ⟨rfl, rfl⟩ := h
    have hpush : (b.tree.push ⟨d, sp, b.parent, b.sibling, none, none, none⟩).nodes[new]? =
        some ⟨d, sp, b.parent, b.sibling, none, none, none⟩ := by
      simp [Tree.push, hnew]
    have hpar : b.parent ≠ some new := by
      intro e
      have := hw new e
      omega
    have hsib : b.sibling ≠ some new := by
      intro e
      have := hs new e
      omega
    have hget : ∀ (t : Tree α) (id : Option Nat) (f : Links α → Links α), id ≠ some new →
        (t.modifyOpt id f).nodes[new]? = t.nodes[new]? := by
      intro t id f hid
      cases id with
      | none => rfl
      | some i =>
        have : i ≠ new := fun e => hid (by rw [e])
        simp [Tree.modifyOpt, Tree.modifyNode, this]
    have hfin : ((match b.parent with
        | some id => (b.tree.push ⟨d, sp, b.parent, b.sibling, none, none, none⟩).modifyNode id
            (Links.addChild new sp)
        | none => (b.tree.push ⟨d, sp, b.parent, b.sibling, none, none, none⟩).addRoot new).modifyOpt
          b.sibling (fun l => { l with next := some new })).nodes[new]? =
        some ⟨d, sp, b.parent, b.sibling, none, none, none⟩ := by
      rw [hget _ _ _ hsib]
      cases hp : b.parent with
      | none => rw [hp] at hpush; exact hpush
      | some id =>
        rw [hp] at hpush hpar
        exact (hget (b.tree.push ⟨d, sp, some id, b.sibling, none, none, none⟩) (some id)
          (Links.addChild new sp) hpar).trans hpush
    refine ⟨hnew, ⟨(List.getElem?_eq_some_iff.1 hfin).1, hpar, ?_⟩, hfin⟩
    have hk1 : NoKids (b.tree.push ⟨d, sp, b.parent, b.sibling, none, none, none⟩).nodes new := by
      have := (Keeps.push (B := fun i => i = new) b.tree.nodes
        ⟨d, sp, b.parent, b.sibling, none, none, none⟩ (by rintro i rfl; exact hpar)).kids new rfl
        (by rw [hnew]; exact hk)
      exact this
    have k2 := Keeps.modifyOpt (B := fun i => i = new) (match b.parent with
        | some id => (b.tree.push ⟨d, sp, b.parent, b.sibling, none, none, none⟩).modifyNode id
            (Links.addChild new sp)
        | none => (b.tree.push ⟨d, sp, b.parent, b.sibling, none, none, none⟩).addRoot new)
          b.sibling (fun l => { l with next := some new }) (fun _ => rfl) (fun _ => rfl)
          (fun _ _ _ _ => ⟨rfl, rfl⟩)
    refine k2.kids new rfl ?_
    cases hp : b.parent with
    | none => rw [hp] at hk1; exact hk1
    | some id =>
      rw [hp] at hk1 hpar
      exact (Keeps.modify (B := fun i => i = new)
        (b.tree.push ⟨d, sp, some id, b.sibling, none, none, none⟩).nodes id (Links.addChild new sp)
        (fun _ => rfl) (fun _ => rfl) (fun e => absurd (by rw [e]) hpar)).kids new rfl hk1

theorem Leaves.openWith (b : Builder α) (d : α) (sp : Span) : Leaves b (b.openWith fl d sp).1 := by
  obtain ⟨h1, h2⟩ := Keeps.insert (fl := fl) (B := Done b) b d sp (fun _ h => h.2.1)
  unfold Builder.openWith
  cases hi : b.insert fl d sp with
  | mk b' r =>
    rw [hi] at h1 h2
    cases r with
    | error e => exact ⟨h1, fun i hi => by simp only at h2 ⊢; rw [h2]; exact hi.2.1⟩
    | ok n =>
      refine ⟨h1, fun i hd e => ?_⟩
      simp only [Option.some.injEq] at e
      subst e
      unfold Builder.insert at hi
      split at hi
      · simp at hi
      · rename_i hn
        simp only [Prod.mk.injEq, Except.ok.injEq] at hi
        have := ptrNew_len hn
        have := hd.1
        simp only [Tree.len] at *
        omega

theorem Leaves.close (b : Builder α) : Leaves b b.close.1 := by
  unfold Builder.close
  cases hp : b.parent with
  | none => exact .refl _
  | some head =>
    simp only
    cases hn : b.tree.nodes[head]? with
    | none => exact ⟨.refl _, by simp⟩
    | some links =>
      simp only
      cases hl : links.parent with
      | none => exact ⟨.refl _, by simp⟩
      | some id =>
        have hid : ¬ Done b id := fun h => h.2.2 head links hn hl
        simp only
        split
        · refine ⟨Keeps.modify _ _ _ (fun _ => rfl) (fun _ => rfl) (fun h => absurd h hid), ?_⟩
          intro i hi e
          simp only [Option.some.injEq] at e
          exact hid (e ▸ hi)
        · exact ⟨.refl _, by simp⟩

theorem Leaves.token (b : Builder α) (d : α) (len : Nat) : Leaves b (b.token fl d len).1 := by
  unfold Builder.token
  dsimp only
  split
  · exact .refl _
  · rename_i b1 hb1
    have e : b1.tree.nodes = b.tree.nodes ∧ b1.parent = b.parent := by
      split at hb1
      · rw [← Option.some.inj hb1]; exact ⟨rfl, rfl⟩
      · split at hb1
        · simp at hb1
        · rw [← Option.some.inj hb1]; exact ⟨rfl, rfl⟩
    obtain ⟨h1, h2⟩ := Keeps.insert (fl := fl) (B := Done b) b1 d (Span.new b.cursor b1.cursor)
      (fun i h => by rw [e.2]; exact h.2.1)
    rw [e.1] at h1
    rw [e.2] at h2
    cases hi : b1.insert fl d (Span.new b.cursor b1.cursor) with
    | mk b' r =>
      rw [hi] at h1 h2
      have hpar : ∀ i, Done b i → b'.parent ≠ some i := fun i hi => by
        simp only at h2; rw [h2]; exact hi.2.1
      cases r with
      | error e => exact ⟨h1, hpar⟩
      | ok n =>
        simp only
        split
        · exact ⟨h1, hpar⟩
        · refine ⟨?_, hpar⟩
          simp only [Tree.pushIndex]
          split <;> exact h1

theorem Leaves.tokenWith (b : Builder α) (d : α) (sp : Span) : Leaves b (b.tokenWith fl d sp).1 := by
  obtain ⟨h1, h2⟩ := Keeps.insert (fl := fl) (B := Done b) b d sp (fun _ h => h.2.1)
  unfold Builder.tokenWith
  cases hi : b.insert fl d sp with
  | mk b' r =>
    rw [hi] at h1 h2
    have hpar : ∀ i, Done b i → b'.parent ≠ some i := fun i hi => by
      simp only at h2; rw [h2]; exact hi.2.1
    cases r with
    | error e => exact ⟨h1, hpar⟩
    | ok n =>
      refine ⟨?_, hpar⟩
      simp only
      have h3 : Keeps (Done b) b.tree.nodes (b'.tree.pushIndex fl ⟨sp.start, n⟩).nodes := by
        unfold Tree.pushIndex; split <;> exact h1
      exact h3.trans (Keeps.modifyOpt _ _ _ (fun _ => rfl) (fun _ => rfl)
        (fun i e hd => absurd e (hpar i hd)))

theorem Leaves.mkCheckpoint (b : Builder α) (cells : Cells) :
    Leaves b (b.mkCheckpoint fl cells).2.1 := by
  unfold Builder.mkCheckpoint
  split
  · exact .refl _
  · dsimp only
    split
    · exact ⟨.refl _, fun _ h => h.2.1⟩
    · split
      · split
        · exact .refl _
        · exact ⟨.refl _, fun _ h => h.2.1⟩
      · exact ⟨.refl _, fun _ h => h.2.1⟩

theorem Leaves.closeAtCore (b : Builder α) (cells : Cells) (c : Nat) (d : α) (sp : Option Span) :
    Leaves b (b.closeAtCore fl cells c d sp).2.1 := by
  unfold Builder.closeAtCore
  cases hcell : cells[c]? with
  | none => exact .refl _
  | some cell =>
    simp only
    split
    · exact .refl _
    · cases hn : ptrNew fl.width b.tree.len with
      | none => exact .refl _
      | some newId =>
        have hnew : ¬ Done b newId := by
          intro h
          have := ptrNew_len hn
          have := h.1
          simp only [Tree.len] at *
          omega
        simp only
        cases hl : b.tree.nodes[cell.node]? with
        | none =>
          obtain ⟨h1, h2⟩ := Keeps.insert (fl := fl) (B := Done b) b d
            (sp.getD (Span.point b.cursor)) (fun _ h => h.2.1)
          simp only
          cases hi : b.insert fl d (sp.getD (Span.point b.cursor)) with
          | mk b' r =>
            rw [hi] at h1 h2
            have hpar : ∀ i, Done b i → b'.parent ≠ some i := fun i hi => by
              simp only at h2; rw [h2]; exact hi.2.1
            cases r with
            | error e => exact ⟨h1, hpar⟩
            | ok n =>
              simp only
              split
              · exact ⟨h1, hpar⟩
              · exact ⟨h1, hpar⟩
        | some links =>
          simp only
          have h1 := Keeps.reparent hnew hl
          cases hr : reparent newId cell.node links b.tree.nodes with
          | mk ns r =>
            rw [hr] at h1
            cases r with
            | error e => exact ⟨h1, fun _ h => h.2.1⟩
            | ok p =>
              obtain ⟨last, span⟩ := p
              refine ⟨?_, fun _ h => h.2.1⟩
              exact Keeps.trans h1 (Keeps.relink (t := { b.tree with nodes := ns })
                (fun i hi => hi.2.2 _ _ hl) rfl)

/-- One call. -/
theorem Leaves.step (s : Sys α) (op : Op α) : Leaves s.b (s.step fl op).1.b := by
  cases op with
  | «open» d => exact Leaves.openWith s.b d _
  | openWith d sp => exact Leaves.openWith s.b d sp
  | close => exact Leaves.close s.b
  | token d len => exact Leaves.token s.b d len
  | tokenEmpty d => exact Leaves.token s.b d 0
  | tokenWith d sp => exact Leaves.tokenWith s.b d sp
  | checkpoint =>
    have := Leaves.mkCheckpoint (fl := fl) s.b s.cells
    simp only [Sys.step]
    split <;> rename_i e <;> rw [e] at this <;> exact this
  | closeAt k d =>
    simp only [Sys.step]
    split
    · exact .refl _
    · exact Leaves.closeAtCore s.b _ _ _ _
  | closeAtWith k d sp =>
    simp only [Sys.step]
    split
    · exact .refl _
    · exact Leaves.closeAtCore s.b _ _ _ _
  | setCursor i => exact ⟨.refl _, fun _ h => h.2.1⟩

/-! ## The node that a call makes -/

theorem NoKids.of_nok {ns : List (Links α)} (h : NOk ns) : NoKids ns ns.length := by
  intro j l hl e
  have := h.par j l _ hl e
  omega

theorem WFB.insert_new {b b' : Builder α} {st : List Nat} {d : α} {sp : Span} {n : Nat}
    (hw : WFB fl b st) (h : b.insert fl d sp = (b', .ok n)) :
    n = b.tree.nodes.length ∧ Done b' n ∧
      b'.tree.nodes[n]? = some ⟨d, sp, b.parent, b.sibling, none, none, none⟩ :=
  Syntree.insert_new (fun _ e => hw.parent_lt e) hw.sib (.of_nok hw.nok) h

theorem openWith_data {b b' : Builder α} {st : List Nat} {d : α} {sp : Span} {n : Nat}
    (hw : WFB fl b st) (h : b.openWith fl d sp = (b', .ok n)) :
    ∃ l, b'.tree.nodes[n]? = some l ∧ l.data = d := by
  unfold Builder.openWith at h
  cases hi : b.insert fl d sp with
  | mk b1 r =>
    rw [hi] at h
    cases r with
    | error e => simp at h
    | ok m =>
      simp only [Prod.mk.injEq, Except.ok.injEq] at h
      obtain ⟨rfl, rfl⟩ := h
      exact ⟨_, (hw.insert_new hi).2.2, rfl⟩

/-- A token. -/
theorem token_new {b b' : Builder α} {st : List Nat} {d : α} {len : Nat} {n : Nat}
    (hw : WFB fl b st) (h : b.token fl d len = (b', .ok n)) :
    Done b' n ∧ ∃ l, b'.tree.nodes[n]? = some l ∧ l.data = d ∧
      l.span = ⟨b.cursor, b.cursor + Op.len fl (Op.token d len)⟩ ∧ l.first = none := by
  unfold Builder.token at h
  dsimp only at h
  split at h
  · simp at h
  · rename_i b1 hb1
    have e : b1.tree.nodes = b.tree.nodes ∧ b1.parent = b.parent ∧ b1.sibling = b.sibling ∧
        b1.cursor = b.cursor + Op.len fl (Op.token d len) := by
      split at hb1
      · rename_i h0
        rw [← Option.some.inj hb1]; exact ⟨rfl, rfl, rfl, by simp [Op.len, h0]⟩
      · rename_i h0
        split at hb1
        · simp at hb1
        · rename_i c hc
          rw [← Option.some.inj hb1]
          refine ⟨rfl, rfl, rfl, ?_⟩
          have h0' : fl.ik.lenIsEmpty len = false := by simpa using h0
          simp only [Op.len, h0', Bool.false_eq_true, if_false]
          revert hc h0'
          cases fl.ik <;> simp only [IndexKind.checkedAddLen, IndexKind.lenIsEmpty]
          · intro hc _; split at hc <;> simp_all
          · simp
    have hw1 : WFB fl b1 st := ⟨by rw [e.1]; exact hw.cap, by rw [e.1]; exact hw.nok,
      by rw [e.1, e.2.2.1]; exact hw.sib, by rw [e.2.1]; exact hw.top, by rw [e.1]; exact hw.chain⟩
    cases hi : b1.insert fl d (Span.new b.cursor b1.cursor) with
    | mk b2 r =>
      rw [hi] at h
      cases r with
      | error e => simp at h
      | ok m =>
        obtain ⟨_, h1, h2⟩ := hw1.insert_new hi
        have fin : ∀ t : Tree α, t.nodes = b2.tree.nodes →
            Done { b2 with sibling := some m, tree := t } m ∧
            ∃ l, t.nodes[m]? = some l ∧ l.data = d ∧
              l.span = ⟨b.cursor, b.cursor + Op.len fl (Op.token d len)⟩ ∧ l.first = none := by
          intro t ht
          refine ⟨⟨by rw [ht]; exact h1.1, h1.2.1, by rw [ht]; exact h1.2.2⟩, _, by rw [ht]; exact h2,
            rfl, ?_, rfl⟩
          simp only [Span.new]
          rw [e.2.2.2]
        simp only at h
        split at h
        · simp only [Prod.mk.injEq, Except.ok.injEq] at h
          obtain ⟨rfl, rfl⟩ := h
          exact fin b2.tree rfl
        · simp only [Prod.mk.injEq, Except.ok.injEq] at h
          obtain ⟨rfl, rfl⟩ := h
          exact fin (b2.tree.pushIndex fl ⟨b2.cursor, m⟩) (by unfold Tree.pushIndex; split <;> rfl)

theorem tokenWith_new {b b' : Builder α} {st : List Nat} {d : α} {sp : Span} {n : Nat}
    (hw : WFB fl b st) (h : b.tokenWith fl d sp = (b', .ok n)) :
    Done b' n ∧ ∃ l, b'.tree.nodes[n]? = some l ∧ l.data = d ∧ l.span = sp ∧ l.first = none := by
  unfold Builder.tokenWith at h
  cases hi : b.insert fl d sp with
  | mk b1 r =>
    rw [hi] at h
    cases r with
    | error e => simp at h
    | ok m =>
      obtain ⟨_, h1, h2⟩ := hw.insert_new hi
      simp only [Prod.mk.injEq, Except.ok.injEq] at h
      obtain ⟨rfl, rfl⟩ := h
      have ht : (b1.tree.pushIndex fl ⟨sp.start, m⟩).nodes = b1.tree.nodes := by
        unfold Tree.pushIndex; split <;> rfl
      have k := Keeps.modifyOpt (B := fun i => i = m) (b1.tree.pushIndex fl ⟨sp.start, m⟩) b1.parent
        (fun p => { p with span := p.span.join sp }) (fun _ => rfl) (fun _ => rfl)
        (by rintro i e rfl; exact absurd e h1.2.1)
      rw [ht] at k
      obtain ⟨l, e1, e2, e3⟩ := k.get m _ h2
      refine ⟨⟨(List.getElem?_eq_some_iff.1 e1).1, h1.2.1, k.kids m rfl h1.2.2⟩, l, e1, e2, ?_, ?_⟩
      · exact (e3 rfl).1
      · exact (e3 rfl).2

theorem relink_new (t : Tree α) (id newId : Nat) (parent prev : Option Nat) (new : Links α) (n : Nat)
    (h : n = t.nodes.length) : (t.relink id newId parent prev new).nodes[n]? = some new := by
  subst h
  unfold Tree.relink
  cases parent <;> cases prev <;> simp [Tree.modifyOpt, Tree.modifyNode, Tree.push]

theorem closeAtCore_data {b b' : Builder α} {st : List Nat} {cells cells' : Cells} {c n : Nat} {d : α}
    {sp : Option Span} (hw : WFB fl b st) (h : b.closeAtCore fl cells c d sp = (cells', b', .ok n)) :
    ∃ l, b'.tree.nodes[n]? = some l ∧ l.data = d := by
  unfold Builder.closeAtCore at h
  cases hcell : cells[c]? with
  | none => rw [hcell] at h; simp at h
  | some cell =>
    rw [hcell] at h
    simp only at h
    split at h
    · simp at h
    · cases hn : ptrNew fl.width b.tree.len with
      | none => rw [hn] at h; simp at h
      | some newId =>
        rw [hn] at h
        simp only at h
        cases hl : b.tree.nodes[cell.node]? with
        | none =>
          rw [hl] at h
          simp only at h
          cases hi : b.insert fl d (sp.getD (Span.point b.cursor)) with
          | mk b1 r =>
            rw [hi] at h
            cases r with
            | error e => simp at h
            | ok m =>
              simp only at h
              split at h
              · simp at h
              · simp only [Prod.mk.injEq, Except.ok.injEq] at h
                obtain ⟨_, rfl, rfl⟩ := h
                exact ⟨_, (hw.insert_new hi).2.2, rfl⟩
        | some links =>
          rw [hl] at h
          simp only at h
          have h1 := Keeps.reparent (B := fun _ => False) (newId := newId) (by simp) hl
          have hlen : ∀ ns, (reparent newId cell.node links b.tree.nodes).1 = ns →
              ns.length = b.tree.nodes.length := by
            intro ns e
            obtain ⟨nodes', last, span, e', e2, _⟩ := reparent_ok newId cell.node hw.nok.next hl
            rw [e'] at e
            rw [← e]; exact e2
          cases hr : reparent newId cell.node links b.tree.nodes with
          | mk ns r =>
            rw [hr] at h
            have hlen := hlen ns (by rw [hr])
            cases r with
            | error e => simp at h
            | ok p =>
              obtain ⟨last, span⟩ := p
              simp only [Prod.mk.injEq, Except.ok.injEq] at h
              obtain ⟨_, rfl, rfl⟩ := h
              have hnew := ptrNew_len hn
              refine ⟨⟨d, sp.getD span, links.parent, links.prev, none, some cell.node, some last⟩,
                ?_, rfl⟩
              · refine relink_new _ _ _ _ _ _ _ ?_
                rw [hnew]
                exact hlen.symm

theorem map_id_ok {r : Except Err Nat} {n : Nat} (h : r.map Out.id = .ok (.id n)) : r = .ok n := by
  cases r with
  | error e => simp [Except.map] at h
  | ok m =>
    simp only [Except.map, Except.ok.injEq, Out.id.injEq] at h
    rw [h]

/-- The node that a call makes: its value; and if it is a token, its span, and that it is done. -/
theorem step_made {s : Sys α} {st : List Nat} {op : Op α} {n : Nat} {d : α} (hw : WFB fl s.b st)
    (hd : op.data = some d) (h : (s.step fl op).2 = .ok (.id n)) :
    (∃ l, (s.step fl op).1.b.tree.nodes[n]? = some l ∧ l.data = d) ∧
    (op.isToken = true → Done (s.step fl op).1.b n ∧ ∃ l, (s.step fl op).1.b.tree.nodes[n]? = some l ∧
      l.data = d ∧ l.span = op.tokenSpan fl s.b.cursor ∧ l.first = none) := by
  cases op with
  | «open» d' =>
    obtain rfl := Option.some.inj hd
    have h' := map_id_ok h
    exact ⟨openWith_data hw (Prod.ext rfl h'), by simp [Op.isToken]⟩
  | openWith d' sp =>
    obtain rfl := Option.some.inj hd
    have h' := map_id_ok h
    exact ⟨openWith_data hw (Prod.ext rfl h'), by simp [Op.isToken]⟩
  | close => simp [Op.data] at hd
  | token d' len =>
    obtain rfl := Option.some.inj hd
    have h' := map_id_ok h
    obtain ⟨h1, l, h2, h3, h4, h5⟩ := token_new hw (Prod.ext rfl h')
    exact ⟨⟨l, h2, h3⟩, fun _ => ⟨⟨h1.1, h1.2.1, h1.2.2⟩, l, h2, h3, h4, h5⟩⟩
  | tokenEmpty d' =>
    obtain rfl := Option.some.inj hd
    have h' := map_id_ok h
    obtain ⟨h1, l, h2, h3, h4, h5⟩ := token_new (len := 0) hw (Prod.ext rfl h')
    refine ⟨⟨l, h2, h3⟩, fun _ => ⟨⟨h1.1, h1.2.1, h1.2.2⟩, l, h2, h3, ?_, h5⟩⟩
    rw [h4]
    simp [Op.tokenSpan, Op.len]
  | tokenWith d' sp =>
    obtain rfl := Option.some.inj hd
    have h' := map_id_ok h
    obtain ⟨h1, l, h2, h3, h4, h5⟩ := tokenWith_new hw (Prod.ext rfl h')
    exact ⟨⟨l, h2, h3⟩, fun _ => ⟨⟨h1.1, h1.2.1, h1.2.2⟩, l, h2, h3, h4, h5⟩⟩
  | checkpoint => simp [Op.data] at hd
  | closeAt k d' =>
    obtain rfl := Option.some.inj hd
    refine ⟨?_, by simp [Op.isToken]⟩
    simp only [Sys.step] at h ⊢
    split at h
    · simp at h
    · exact closeAtCore_data (cells' := _) hw (Prod.ext rfl (Prod.ext rfl (map_id_ok h)))
  | closeAtWith k d' sp =>
    obtain rfl := Option.some.inj hd
    refine ⟨?_, by simp [Op.isToken]⟩
    simp only [Sys.step] at h ⊢
    split at h
    · simp at h
    · exact closeAtCore_data (cells' := _) hw (Prod.ext rfl (Prod.ext rfl (map_id_ok h)))
  | setCursor i => simp [Op.data] at hd

/-! ## Programs -/

/-- Later steps of a program leave alone what a builder has. -/
theorem World.run_keeps (ops : List (WOp α)) {w : World α} {i : Nat} {b : Builder α}
    (hb : w.builders[i]? = some (fl, b)) :
    ∃ b', (w.run ops).1.builders[i]? = some (fl, b') ∧
      (∀ n l, b.tree.nodes[n]? = some l → ∃ l', b'.tree.nodes[n]? = some l' ∧ l'.data = l.data ∧
        (Done b n → l'.span = l.span ∧ l'.first = l.first)) := by
  induction ops generalizing w b with
  | nil => exact ⟨b, hb, fun n l h => ⟨l, h, rfl, fun _ => ⟨rfl, rfl⟩⟩⟩
  | cons op ops ih =>
    have hi := (List.getElem?_eq_some_iff.1 hb).1
    obtain ⟨b1, h1, h2⟩ : ∃ b1, (w.step op).1.builders[i]? = some (fl, b1) ∧ Leaves b b1 := by
      cases op with
      | new f => exact ⟨b, by
          simp only [World.step]; rw [List.getElem?_append_left hi]; exact hb, .refl _⟩
      | clone k =>
        refine ⟨b, ?_, .refl _⟩
        simp only [World.step]
        split
        · exact hb
        · simp only; rw [List.getElem?_append_left hi]; exact hb
      | call k op =>
        simp only [World.step]
        cases hk : w.builders[k]? with
        | none => exact ⟨b, hb, .refl _⟩
        | some p =>
          obtain ⟨f, bk⟩ := p
          simp only
          by_cases e : k = i
          · subst e
            rw [hb] at hk
            simp only [Option.some.injEq, Prod.mk.injEq] at hk
            obtain ⟨rfl, rfl⟩ := hk
            exact ⟨_, by rw [List.getElem?_set]; simp [hi],
              Leaves.step (fl := fl) ⟨b, w.cells, w.handles⟩ op⟩
          · exact ⟨b, by rw [List.getElem?_set]; simp [e, hb], .refl _⟩
    obtain ⟨b', h3, h4⟩ := ih h1
    refine ⟨b', h3, ?_⟩
    intro n l hl
    obtain ⟨l1, e1, d1, k1⟩ := h2.keeps.get n l hl
    obtain ⟨l2, e2, d2, k2⟩ := h4 n l1 e1
    refine ⟨l2, e2, d2.trans d1, fun hd => ?_⟩
    obtain ⟨a1, a2⟩ := k1 hd
    obtain ⟨a3, a4⟩ := k2 (h2.done hd)
    exact ⟨a3.trans a1, a4.trans a2⟩

end Syntree
