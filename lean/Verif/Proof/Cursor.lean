import Verif.Proof.Spans
import Verif.Proof.Outcome

/-!
The cursor and the spans in every history without explicit spans, also where checkpoints have been
misused: the cursor never moves back, and is the end of the tree and of the node being built.
-/

namespace Syntree

variable {α : Type} {fl : Flavor}

/-- Every node ends at `c` or before. -/
def EndsBy (c : Nat) (nodes : List (Links α)) : Prop :=
  ∀ (i : Nat) (l : Links α), nodes[i]? = some l → l.span.stop ≤ c

structure CurInv (b : Builder α) : Prop where
  stop : b.tree.span = ⟨0, b.cursor⟩
  ends : EndsBy b.cursor b.tree.nodes
  top : ∀ id, b.parent = some id → ∃ l, b.tree.nodes[id]? = some l ∧ l.span.stop = b.cursor

theorem CurInv.new : CurInv (Builder.new : Builder α) :=
  ⟨rfl, by intro i l h; simp [Builder.new, Tree.empty] at h, by simp [Builder.new]⟩

theorem EndsBy.mono {c c' : Nat} {nodes : List (Links α)} (h : EndsBy c nodes) (hc : c ≤ c') :
    EndsBy c' nodes := fun i l hl => Nat.le_trans (h i l hl) hc

theorem EndsBy.modify {c : Nat} {nodes : List (Links α)} (h : EndsBy c nodes) (id : Nat)
    (f : Links α → Links α) (hf : ∀ l, l.span.stop ≤ c → (f l).span.stop ≤ c) :
    EndsBy c (nodes.modify id f) := by
  intro i l hl
  rw [List.getElem?_modify] at hl
  cases hn : nodes[i]? with
  | none => rw [hn] at hl; simp at hl
  | some l0 =>
    rw [hn] at hl
    have := h i l0 hn
    split at hl <;> simp at hl <;> subst hl
    · exact hf _ this
    · exact this

theorem EndsBy.push {c : Nat} {nodes : List (Links α)} (h : EndsBy c nodes) {l : Links α}
    (hl : l.span.stop ≤ c) : EndsBy c (nodes ++ [l]) := by
  intro i x hx
  rw [List.getElem?_append] at hx
  split at hx
  · exact h i x hx
  · have : x = l := by
      have := List.mem_of_getElem? hx
      simpa using this
    rw [this]; exact hl

theorem EndsBy.set {c : Nat} {nodes : List (Links α)} (h : EndsBy c nodes) {id : Nat} {l : Links α}
    (hl : l.span.stop ≤ c) : EndsBy c (nodes.set id l) := by
  intro i x hx
  rw [List.getElem?_set] at hx
  split at hx
  · split at hx
    · simp only [Option.some.injEq] at hx; rw [← hx]; exact hl
    · simp at hx
  · exact h i x hx

/-- The same spans. -/
def SameSpans (a b : List (Links α)) : Prop :=
  ∀ i : Nat, (a[i]?).map (·.span) = (b[i]?).map (·.span)

theorem SameSpans.refl (a : List (Links α)) : SameSpans a a := fun _ => rfl

theorem SameSpans.trans {a b c : List (Links α)} (h : SameSpans a b) (h' : SameSpans b c) :
    SameSpans a c := fun i => (h i).trans (h' i)

theorem SameSpans.length {a b : List (Links α)} (h : SameSpans a b) : a.length = b.length := by
  have ha := h b.length
  have hb := h a.length
  simp only [List.getElem?_eq_none (Nat.le_refl _), Option.map_none] at ha hb
  have e1 : a.length ≤ b.length := by
    cases hx : a[b.length]? with
    | none => exact List.getElem?_eq_none_iff.1 hx
    | some x => rw [hx] at ha; simp at ha
  have e2 : b.length ≤ a.length := by
    cases hx : b[a.length]? with
    | none => exact List.getElem?_eq_none_iff.1 hx
    | some x => rw [hx] at hb; simp at hb
  omega

theorem SameSpans.ends {a b : List (Links α)} {c : Nat} (h : SameSpans a b) (he : EndsBy c b) :
    EndsBy c a := by
  intro i l hl
  have := h i
  rw [hl] at this
  cases hb : b[i]? with
  | none => rw [hb] at this; simp at this
  | some l' =>
    rw [hb] at this
    simp only [Option.map_some, Option.some.injEq] at this
    rw [this]; exact he i l' hb

theorem SameSpans.get {a b : List (Links α)} (h : SameSpans a b) {i : Nat} {l : Links α}
    (hl : b[i]? = some l) : ∃ l', a[i]? = some l' ∧ l'.span = l.span := by
  have := h i
  rw [hl] at this
  cases ha : a[i]? with
  | none => rw [ha] at this; simp at this
  | some l' => rw [ha] at this; exact ⟨l', rfl, by simpa using this⟩

theorem SameSpans.set {nodes : List (Links α)} {id : Nat} {l l' : Links α}
    (hl : nodes[id]? = some l) (hs : l'.span = l.span) : SameSpans (nodes.set id l') nodes := by
  intro i
  rw [List.getElem?_set]
  split
  · rename_i h
    subst h
    rw [hl]
    have : id < nodes.length := (List.getElem?_eq_some_iff.1 hl).1
    simp [this, hs]
  · rfl

theorem SameSpans.modify (nodes : List (Links α)) (id : Nat) (f : Links α → Links α)
    (hf : ∀ l, (f l).span = l.span) : SameSpans (nodes.modify id f) nodes := by
  intro i
  rw [List.getElem?_modify]
  cases nodes[i]? with
  | none => rfl
  | some l => simp only [Option.map_some]; split <;> simp [hf]

theorem SameSpans.modifyOpt (t : Tree α) (id : Option Nat) (f : Links α → Links α)
    (hf : ∀ l, (f l).span = l.span) : SameSpans (t.modifyOpt id f).nodes t.nodes := by
  cases id with
  | none => exact .refl _
  | some id => exact .modify _ _ _ hf

theorem modifyOpt_span (t : Tree α) (id : Option Nat) (f : Links α → Links α) :
    (t.modifyOpt id f).span = t.span := by cases id <;> rfl

theorem restructure_spans (p : Nat) : ∀ (fuel : Nat) (nodes : List (Links α)) (cur c : Nat),
    EndsBy c nodes → SameSpans (restructure p fuel nodes cur).1 nodes ∧
      ∀ last stop, (restructure p fuel nodes cur).2 = .ok (last, stop) → stop ≤ c := by
  intro fuel
  induction fuel with
  | zero => intro nodes cur c _; exact ⟨.refl _, by simp [restructure]⟩
  | succ fuel ih =>
    intro nodes cur c he
    unfold restructure
    cases hn : nodes[cur]? with
    | none => exact ⟨.refl _, by simp⟩
    | some l =>
      have hs : SameSpans (nodes.set cur { l with parent := some p }) nodes := .set hn rfl
      dsimp only
      generalize nodes.set cur { l with parent := some p } = ns at hs
      cases hx : l.next with
      | none =>
        simp only [hx]
        refine ⟨hs, ?_⟩
        intro last stop h
        simp only [Except.ok.injEq, Prod.mk.injEq] at h
        rw [← h.2]; exact he cur l hn
      | some next =>
        simp only [hx]
        obtain ⟨h1, h2⟩ := ih ns next c (hs.ends he)
        exact ⟨h1.trans hs, h2⟩

theorem reparent_spans {newId id : Nat} {links : Links α} {nodes : List (Links α)} {c : Nat}
    (hl : nodes[id]? = some links) (he : EndsBy c nodes) :
    SameSpans (reparent newId id links nodes).1 nodes ∧
      ∀ last span, (reparent newId id links nodes).2 = .ok (last, span) → span.stop ≤ c := by
  unfold reparent
  have hs : SameSpans (nodes.set id { links with parent := some newId, prev := none }) nodes :=
    .set hl rfl
  dsimp only
  generalize nodes.set id { links with parent := some newId, prev := none } = ns at hs
  cases hx : links.next with
  | none =>
    simp only [hx]
    refine ⟨hs, ?_⟩
    intro last span h
    simp only [Except.ok.injEq, Prod.mk.injEq] at h
    rw [← h.2]; exact he id links hl
  | some next =>
    simp only [hx]
    obtain ⟨h1, h2⟩ := restructure_spans newId (ns.length + 1) ns next c (hs.ends he)
    generalize restructure newId (ns.length + 1) ns next = r at h1 h2
    obtain ⟨ns', e | ⟨last, stop⟩⟩ := r
    · exact ⟨h1.trans hs, by simp⟩
    · refine ⟨h1.trans hs, ?_⟩
      intro last' span h
      simp only [Except.ok.injEq, Prod.mk.injEq] at h
      rw [← h.2]; exact h2 last stop rfl

/-- What a call does to the cursor: the builder is as before in this respect, or is at a later place
that the call has gone to. -/
structure Advanced (b b' : Builder α) (len : Nat) : Prop where
  inv : CurInv b'
  cursor : b'.cursor = b.cursor + len

/-- A node is put in at the cursor, which is `c` by now. -/
theorem CurInv.insert {b b' : Builder α} (h : CurInv b) {d : α} {start c new : Nat}
    (hi : (Builder.insert fl { b with cursor := c, tree := { b.tree with span := ⟨0, c⟩ } } d
      ⟨start, c⟩) = (b', .ok new)) (hc : b.cursor ≤ c) :
    CurInv b' ∧ b'.cursor = c ∧ b'.parent = b.parent ∧ new = b.tree.nodes.length ∧
      ∃ l, b'.tree.nodes[new]? = some l ∧ l.span.stop = c := by
  unfold Builder.insert at hi
  simp only at hi
  split at hi
  · simp at hi
  · rename_i n hn
    have hnew : n = b.tree.nodes.length := by
      rw [ptrNew_eq] at hn
      split at hn
      · exact (Option.some.inj hn).symm
      · simp at hn
    simp only [Prod.mk.injEq, Except.ok.injEq] at hi
    obtain ⟨rfl, rfl⟩ := hi
    have hsub : n = b.tree.nodes.length := hnew
    refine ⟨⟨?_, ?_, ?_⟩, rfl, rfl, hnew, ?_⟩
    · rw [modifyOpt_span]
      cases b.parent <;> rfl
    · refine (SameSpans.modifyOpt _ _ _ ?_).ends ?_
      · intro l; rfl
      · have hp : EndsBy c (b.tree.nodes ++ [(Links.mk d ⟨start, c⟩ (b.parent) b.sibling none none none)]) :=
          (h.ends.mono hc).push (Nat.le_refl _)
        cases hb : b.parent with
        | none => rw [hb] at hp; exact hp
        | some id =>
          rw [hb] at hp
          exact hp.modify _ _ (fun l _ => Nat.le_refl _)
    · intro id hid
      simp only at hid
      obtain ⟨l, hl, _⟩ := h.top id hid
      have hlt : id < b.tree.nodes.length := (List.getElem?_eq_some_iff.1 hl).1
      rw [hid]
      have hget : ((Tree.push ({ b.tree with span := ⟨0, c⟩ } : Tree α)
          (Links.mk d ⟨start, c⟩ (some id) b.sibling none none none)).modifyNode id
          (Links.addChild n ⟨start, c⟩)).nodes[id]? = some (Links.addChild n ⟨start, c⟩ l) := by
        simp only [Tree.modifyNode, Tree.push, List.getElem?_modify, List.getElem?_append_left hlt, hl]
        simp
      obtain ⟨l', e1, e2⟩ := (SameSpans.modifyOpt ((Tree.push ({ b.tree with span := ⟨0, c⟩ } : Tree α)
          (Links.mk d ⟨start, c⟩ (some id) b.sibling none none none)).modifyNode id
          (Links.addChild n ⟨start, c⟩)) b.sibling (fun l => { l with next := some n })
          (fun _ => rfl)).get hget
      exact ⟨l', e1, by rw [e2]; rfl⟩
    · cases hb : b.parent with
      | none =>
        obtain ⟨l', e1, e2⟩ := (SameSpans.modifyOpt ((Tree.push ({ b.tree with span := ⟨0, c⟩ } : Tree α)
          (Links.mk d ⟨start, c⟩ (none) b.sibling none none none)).addRoot n) b.sibling
            (fun l => { l with next := some n }) (fun _ => rfl)).get (i := n)
            (l := Links.mk d ⟨start, c⟩ (none) b.sibling none none none)
            (by simp [Tree.push, Tree.addRoot, hnew])
        exact ⟨l', e1, by rw [e2]⟩
      | some id =>
        obtain ⟨l, hl, _⟩ := h.top id hb
        have hlt : id < b.tree.nodes.length := (List.getElem?_eq_some_iff.1 hl).1
        obtain ⟨l', e1, e2⟩ := (SameSpans.modifyOpt ((Tree.push ({ b.tree with span := ⟨0, c⟩ } : Tree α)
          (Links.mk d ⟨start, c⟩ (some id) b.sibling none none none)).modifyNode id
          (Links.addChild n ⟨start, c⟩)) b.sibling
            (fun l => { l with next := some n }) (fun _ => rfl)).get (i := n)
            (l := Links.mk d ⟨start, c⟩ (some id) b.sibling none none none)
            (by
              simp only [Tree.push, Tree.modifyNode, List.getElem?_modify]
              have : id ≠ n := by omega
              simp only [if_neg this]
              simp [hnew])
        exact ⟨l', e1, by rw [e2]⟩

theorem CurInv.same {b : Builder α} (h : CurInv b) :
    ({ b with cursor := b.cursor, tree := { b.tree with span := ⟨0, b.cursor⟩ } } : Builder α) = b := by
  rw [← h.stop]

theorem insert_fails {b b' : Builder α} {d : α} {sp : Span} {e : Err}
    (h : Builder.insert fl b d sp = (b', .error e)) :
    b' = b ∧ e = .overflow ∧ ¬ b.tree.nodes.length < 2 ^ fl.width - 1 := by
  unfold Builder.insert at h
  split at h
  · rename_i hn
    rw [ptrNew_eq] at hn
    split at hn
    · simp at hn
    · rename_i hlt
      simp only [Prod.mk.injEq, Except.error.injEq] at h
      exact ⟨h.1.symm, h.2.symm, hlt⟩
  · simp at h

/-- How a call goes, as far as the cursor is concerned. -/
def Goes (fl : Flavor) (s : Sys α) (op : Op α) (r : Sys α × Except Err Out) : Prop :=
  (r.2 = .error .overflow ∧ (s.b.tree.nodes.length < 2 ^ fl.width - 1 → r.1 = s)) ∨
  (CurInv r.1.b ∧ r.1.b.cursor = s.b.cursor + if (idOf r.2).isSome then op.len fl else 0)

theorem Goes.stay {s : Sys α} {op : Op α} {r : Sys α × Except Err Out} (h : CurInv r.1.b)
    (hc : r.1.b.cursor = s.b.cursor) (hl : op.len fl = 0 ∨ (idOf r.2).isSome = false) :
    Goes fl s op r := by
  refine .inr ⟨h, ?_⟩
  rcases hl with hl | hl
  · rw [hl, hc]; split <;> rfl
  · rw [hl, hc]; rfl

theorem CurInv.open {s : Sys α} (h : CurInv s.b) (d : α) :
    Goes fl s (.open d) (s.step fl (.open d)) := by
  simp only [Sys.step, Sys.lift, Builder.open, Builder.openWith, Span.point]
  cases hi : s.b.insert fl d ⟨s.b.cursor, s.b.cursor⟩ with
  | mk b' r =>
    cases r with
    | error e =>
      obtain ⟨rfl, rfl, hlt⟩ := insert_fails hi
      exact .inl ⟨rfl, fun h => absurd h hlt⟩
    | ok id =>
      rw [← h.same] at hi
      obtain ⟨h1, h2, h3, h4, l, h5, h6⟩ := h.insert hi (Nat.le_refl _)
      refine Goes.stay ⟨h1.stop, h1.ends, ?_⟩ h2 (.inl rfl)
      intro i hi'
      simp only [Option.some.injEq] at hi'
      subst hi'
      exact ⟨l, h5, by rw [h6]; exact h2.symm⟩

theorem CurInv.close {s : Sys α} (h : CurInv s.b) :
    Goes fl s .close (s.step fl (.close : Op α)) := by
  simp only [Sys.step, Sys.lift, Builder.close]
  cases hp : s.b.parent with
  | none => exact Goes.stay h rfl (.inl rfl)
  | some head =>
    simp only
    cases hn : s.b.tree.nodes[head]? with
    | none =>
      exact Goes.stay ⟨h.stop, h.ends, by simp⟩ rfl (.inl rfl)
    | some links =>
      simp only
      obtain ⟨l, hl, hs⟩ := h.top head hp
      rw [hn] at hl
      obtain rfl := Option.some.inj hl
      cases hq : links.parent with
      | none => exact Goes.stay ⟨by rw [hs]; exact h.stop, by rw [hs]; exact h.ends, by simp⟩ hs (.inl rfl)
      | some id =>
        simp only
        split
        · rename_i hlt
          refine Goes.stay ⟨?_, ?_, ?_⟩ hs (.inl rfl)
          · simp only [Tree.modifyNode, hs]; exact h.stop
          · simp only [Tree.modifyNode]
            rw [hs]
            refine h.ends.modify _ _ ?_
            intro l hl
            simp only [Span.join]
            omega
          · intro i hi
            simp only [Option.some.injEq] at hi
            subst hi
            have hlt' : id < s.b.tree.nodes.length := hlt
            have hg : s.b.tree.nodes[id]? = some s.b.tree.nodes[id] := List.getElem?_eq_getElem hlt'
            refine ⟨{ s.b.tree.nodes[id] with span := s.b.tree.nodes[id].span.join links.span }, ?_, ?_⟩
            · simp [Tree.modifyNode, List.getElem?_modify, hg]
            · have := h.ends id _ hg
              simp only [Span.join, hs]
              omega
        · exact Goes.stay ⟨h.stop, h.ends, by simp⟩ rfl (.inl rfl)

theorem CurInv.token {s : Sys α} (h : CurInv s.b) (d : α) (len : Nat) :
    Goes fl s (.token d len) (s.step fl (.token d len)) := by
  simp only [Sys.step, Sys.lift, Builder.token]
  cases he : fl.ik.lenIsEmpty len with
  | true =>
    simp only [if_true, Span.new]
    cases hi : s.b.insert fl d ⟨s.b.cursor, s.b.cursor⟩ with
    | mk b' r =>
      cases r with
      | error e =>
        obtain ⟨rfl, rfl, hlt⟩ := insert_fails hi
        exact .inl ⟨rfl, fun h => absurd h hlt⟩
      | ok id =>
        rw [← h.same] at hi
        obtain ⟨h1, h2, h3, h4, l, h5, h6⟩ := h.insert hi (Nat.le_refl _)
        exact Goes.stay ⟨h1.stop, h1.ends, h1.top⟩ h2 (.inl (by simp [Op.len, he]))
  | false =>
    simp only [Bool.false_eq_true, if_false]
    cases ha : fl.ik.checkedAddLen s.b.cursor len with
    | none => exact .inl ⟨rfl, fun _ => rfl⟩
    | some c =>
      have hc := checkedAddLen_some he ha
      simp only [Span.new]
      have hsp : s.b.tree.span.start = 0 := by rw [h.stop]
      rw [hsp]
      cases hi : Builder.insert fl { s.b with cursor := c, tree := { s.b.tree with span := ⟨0, c⟩ } } d
          ⟨s.b.cursor, c⟩ with
      | mk b' r =>
        cases r with
        | error e =>
          obtain ⟨rfl, rfl, hlt⟩ := insert_fails hi
          exact .inl ⟨rfl, fun h => absurd h hlt⟩
        | ok id =>
          obtain ⟨h1, h2, h3, h4, l, h5, h6⟩ := h.insert hi (by omega)
          refine .inr ⟨⟨?_, ?_, ?_⟩, ?_⟩
          · show (Tree.pushIndex fl b'.tree _).span = _
            unfold Tree.pushIndex; split <;> exact h1.stop
          · show EndsBy b'.cursor (Tree.pushIndex fl b'.tree _).nodes
            unfold Tree.pushIndex; split <;> exact h1.ends
          · show ∀ i, b'.parent = some i → ∃ l, (Tree.pushIndex fl b'.tree _).nodes[i]? = some l ∧ _
            unfold Tree.pushIndex; split <;> exact h1.top
          · show b'.cursor = _
            rw [h2, hc]
            simp [Op.len, he, Except.map, idOf]

theorem CurInv.checkpoint {s : Sys α} (h : CurInv s.b) :
    Goes fl s .checkpoint (s.step fl (.checkpoint : Op α)) := by
  simp only [Sys.step, Builder.mkCheckpoint]
  cases hn : ptrNew fl.width s.b.tree.len with
  | none => exact .inl ⟨rfl, fun _ => rfl⟩
  | some node =>
    simp only
    cases hc : s.b.checkpoint with
    | none => exact Goes.stay ⟨h.stop, h.ends, h.top⟩ rfl (.inl rfl)
    | some c =>
      simp only
      cases hcell : s.cells[c]? with
      | none => exact Goes.stay ⟨h.stop, h.ends, h.top⟩ rfl (.inl rfl)
      | some cell =>
        simp only
        by_cases hx : cell.node = node ∧ cell.parent = s.b.parent
        · rw [if_pos hx]; exact Goes.stay ⟨h.stop, h.ends, h.top⟩ rfl (.inl rfl)
        · rw [if_neg hx]; exact Goes.stay ⟨h.stop, h.ends, h.top⟩ rfl (.inl rfl)

theorem relink_span (t : Tree α) (id newId : Nat) (parent prev : Option Nat) (new : Links α) :
    (t.relink id newId parent prev new).span = t.span := by
  unfold Tree.relink
  cases parent <;> cases prev <;> rfl

theorem relink_spans (t : Tree α) (id newId : Nat) (parent prev : Option Nat) (new : Links α) :
    SameSpans (t.relink id newId parent prev new).nodes (t.nodes ++ [new]) := by
  unfold Tree.relink
  simp only [Tree.push]
  intro i
  have h1 := SameSpans.modifyOpt t parent (fun p =>
    { p with
      first := if p.first = some id then some newId else p.first
      last := if p.last = some id then some newId else p.last }) (fun _ => rfl)
  have h2 := (SameSpans.modifyOpt (t.modifyOpt parent (fun p =>
    { p with
      first := if p.first = some id then some newId else p.first
      last := if p.last = some id then some newId else p.last })) prev
      (fun p => { p with next := some newId }) (fun _ => rfl)).trans h1
  generalize (Tree.modifyOpt (t.modifyOpt parent _) prev _) = t' at h2
  have hlen : t'.nodes.length = t.nodes.length := h2.length
  rw [List.getElem?_append, List.getElem?_append, hlen]
  split
  · exact h2 i
  · rfl

theorem CurInv.closeAt {s : Sys α} (h : CurInv s.b) (k : Nat) (d : α) :
    Goes fl s (.closeAt k d) (s.step fl (.closeAt k d)) := by
  simp only [Sys.step]
  cases hk : s.handles[k]? with
  | none => exact Goes.stay h rfl (.inl rfl)
  | some c =>
    simp only [Builder.closeAt, Builder.closeAtCore]
    cases hcell : s.cells[c]? with
    | none => exact Goes.stay h rfl (.inl rfl)
    | some cell =>
      simp only
      split
      · exact Goes.stay h rfl (.inl rfl)
      · cases hn : ptrNew fl.width s.b.tree.len with
        | none => exact .inl ⟨rfl, fun _ => rfl⟩
        | some newId =>
          simp only
          cases hl : s.b.tree.nodes[cell.node]? with
          | none =>
            simp only [Option.getD_none, Span.point]
            cases hi : s.b.insert fl d ⟨s.b.cursor, s.b.cursor⟩ with
            | mk b' r =>
              cases r with
              | error e =>
                obtain ⟨rfl, rfl, hlt⟩ := insert_fails hi
                exact .inl ⟨rfl, fun h => absurd h hlt⟩
              | ok id =>
                rw [← h.same] at hi
                obtain ⟨h1, h2, h3, h4, l, h5, h6⟩ := h.insert hi (Nat.le_refl _)
                simp only
                split
                · exact Goes.stay h1 h2 (.inl rfl)
                · exact Goes.stay ⟨h1.stop, h1.ends, h1.top⟩ h2 (.inl rfl)
          | some links =>
            simp only
            obtain ⟨h1, h2⟩ := reparent_spans (newId := newId) hl h.ends
            cases hr : reparent newId cell.node links s.b.tree.nodes with
            | mk ns r =>
              rw [hr] at h1 h2
              have top : ∀ id, s.b.parent = some id → ∃ l, ns[id]? = some l ∧
                  l.span.stop = s.b.cursor := by
                intro id hid
                obtain ⟨l, e1, e2⟩ := h.top id hid
                obtain ⟨l', e3, e4⟩ := h1.get e1
                exact ⟨l', e3, by rw [e4, e2]⟩
              cases r with
              | error e => exact Goes.stay ⟨h.stop, h1.ends h.ends, top⟩ rfl (.inl rfl)
              | ok p =>
                obtain ⟨last, span⟩ := p
                simp only [Option.getD_none]
                refine Goes.stay ⟨?_, ?_, ?_⟩ rfl (.inl rfl)
                · rw [relink_span]; exact h.stop
                · refine (relink_spans _ _ _ _ _ _).ends ?_
                  exact (h1.ends h.ends).push (h2 last span rfl)
                · intro id hid
                  obtain ⟨l, e1, e2⟩ := top id hid
                  obtain ⟨l', e3, e4⟩ := (relink_spans { s.b.tree with nodes := ns } cell.node newId
                    links.parent links.prev ⟨d, span, links.parent, links.prev, none, some cell.node,
                      some last⟩).get (i := id) (l := l) (by
                        rw [List.getElem?_append_left (List.getElem?_eq_some_iff.1 e1).1]; exact e1)
                  exact ⟨l', e3, by rw [e4, e2]⟩

theorem CurInv.step {s : Sys α} (h : CurInv s.b) {op : Op α} (hc : op.cursorDriven = true) :
    Goes fl s op (s.step fl op) := by
  cases op with
  | «open» d => exact h.open d
  | close => exact h.close
  | token d len => exact h.token d len
  | tokenEmpty d =>
    have := h.token (fl := fl) d 0
    rcases this with h1 | h1
    · exact .inl h1
    · refine .inr ⟨h1.1, h1.2.trans ?_⟩
      simp [Op.len, lenIsEmpty_zero]
  | checkpoint => exact h.checkpoint
  | closeAt k d => exact h.closeAt k d
  | openWith _ _ => simp [Op.cursorDriven] at hc
  | tokenWith _ _ => simp [Op.cursorDriven] at hc
  | closeAtWith _ _ _ => simp [Op.cursorDriven] at hc
  | setCursor _ => simp [Op.cursorDriven] at hc

/-! ## Whole histories -/

/-- The number of nodes never goes down. -/
theorem insert_grows (b : Builder α) (d : α) (sp : Span) :
    b.tree.nodes.length ≤ (b.insert fl d sp).1.tree.nodes.length := by
  unfold Builder.insert
  split
  · exact Nat.le_refl _
  · have : ∀ (t : Tree α) (o : Option Nat) (f : Links α → Links α),
        (t.modifyOpt o f).nodes.length = t.nodes.length := by
      intro t o f; cases o <;> simp [Tree.modifyOpt, Tree.modifyNode]
    simp only [this]
    cases b.parent <;> simp [Tree.modifyNode, Tree.push, Tree.addRoot]

theorem ends_some (nodes : List (Links α)) : ∃ c, EndsBy c nodes := by
  induction nodes with
  | nil => exact ⟨0, by intro i l h; simp at h⟩
  | cons x xs ih =>
    obtain ⟨c, hc⟩ := ih
    refine ⟨max c x.span.stop, ?_⟩
    intro i l h
    cases i with
    | zero => simp only [List.getElem?_cons_zero, Option.some.injEq] at h; subst h; omega
    | succ i =>
      simp only [List.getElem?_cons_succ] at h
      have := hc i l h
      omega

theorem step_grows (s : Sys α) {op : Op α} (hc : op.cursorDriven = true) :
    s.b.tree.nodes.length ≤ (s.step fl op).1.b.tree.nodes.length := by
  have tok : ∀ d len, s.b.tree.nodes.length ≤ (s.b.token fl d len).1.tree.nodes.length := by
    intro d len
    unfold Builder.token
    simp only
    split
    · exact Nat.le_refl _
    · rename_i b' hb
      have hb' : b'.tree.nodes = s.b.tree.nodes := by
        split at hb
        · rw [← Option.some.inj hb]
        · split at hb
          · simp at hb
          · rw [← Option.some.inj hb]
      have := insert_grows (fl := fl) b' d (Span.new s.b.cursor b'.cursor)
      rw [hb'] at this
      split
      · rename_i e; rw [e] at this; exact this
      · rename_i e
        rw [e] at this
        split
        · exact this
        · simp only [Tree.pushIndex]
          split <;> exact this
  cases op with
  | «open» d =>
    have := insert_grows (fl := fl) s.b d (Span.point s.b.cursor)
    simp only [Sys.step, Sys.lift, Builder.open, Builder.openWith]
    split <;> rename_i e <;> rw [e] at this <;> exact this
  | close =>
    simp only [Sys.step, Sys.lift, Builder.close]
    split
    · exact Nat.le_refl _
    · split
      · exact Nat.le_refl _
      · split
        · split
          · simp [Tree.modifyNode]
          · exact Nat.le_refl _
        · exact Nat.le_refl _
  | token d len => exact tok d len
  | tokenEmpty d => exact tok d 0
  | checkpoint =>
    simp only [Sys.step, Builder.mkCheckpoint]
    cases ptrNew fl.width s.b.tree.len with
    | none => exact Nat.le_refl _
    | some node =>
      simp only
      cases s.b.checkpoint with
      | none => exact Nat.le_refl _
      | some c =>
        simp only
        cases s.cells[c]? with
        | none => exact Nat.le_refl _
        | some cell =>
          simp only
          by_cases hx : cell.node = node ∧ cell.parent = s.b.parent
          · rw [if_pos hx]; exact Nat.le_refl _
          · rw [if_neg hx]; exact Nat.le_refl _
  | closeAt k d =>
    simp only [Sys.step]
    cases hk : s.handles[k]? with
    | none => exact Nat.le_refl _
    | some c =>
      simp only [Builder.closeAt, Builder.closeAtCore]
      cases hcell : s.cells[c]? with
      | none => exact Nat.le_refl _
      | some cell =>
        simp only
        split
        · exact Nat.le_refl _
        · cases hn : ptrNew fl.width s.b.tree.len with
          | none => exact Nat.le_refl _
          | some newId =>
            simp only
            cases hl : s.b.tree.nodes[cell.node]? with
            | none =>
              have := insert_grows (fl := fl) s.b d ((none : Option Span).getD (Span.point s.b.cursor))
              simp only
              split
              · rename_i e; rw [e] at this; exact this
              · rename_i e; rw [e] at this; split <;> exact this
            | some links =>
              simp only
              obtain ⟨e, he⟩ := ends_some s.b.tree.nodes
              obtain ⟨h1, h2⟩ := reparent_spans (newId := newId) hl he
              cases hr : reparent newId cell.node links s.b.tree.nodes with
              | mk ns r =>
                rw [hr] at h1
                have hlen := h1.length
                simp only at hlen
                cases r with
                | error e => simp [hlen]
                | ok p =>
                  obtain ⟨last, span⟩ := p
                  simp only
                  rw [(relink_spans _ _ _ _ _ _).length]
                  simp [hlen]
  | openWith _ _ => simp [Op.cursorDriven] at hc
  | tokenWith _ _ => simp [Op.cursorDriven] at hc
  | closeAtWith _ _ _ => simp [Op.cursorDriven] at hc
  | setCursor _ => simp [Op.cursorDriven] at hc

theorem made_cons (op : Op α) (ops : List (Op α)) (o : Except Err Out) (os : List (Except Err Out)) :
    made (op :: ops) (o :: os) = (if (idOf o).isSome then [op] else []) ++ made ops os := by
  unfold made
  rw [List.zip_cons_cons, List.filterMap_cons]
  split <;> rename_i h <;> split at h <;> simp_all

/-- At the end of every history without explicit spans in which no call has run out of pointers, the
cursor has moved by the length of the tokens that were added. -/
theorem CurInv.run (ops : List (Op α)) {s : Sys α} {st : List Nat} (ha : Alone fl s st)
    (h : CurInv s.b) (hc : ∀ op ∈ ops, op.cursorDriven = true)
    (hsp : Spare fl (s.run fl ops).1.b.tree.len (s.run fl ops).2) :
    CurInv (s.run fl ops).1.b ∧
      (s.run fl ops).1.b.cursor = s.b.cursor + textLen fl (made ops (s.run fl ops).2) := by
  induction ops generalizing s st with
  | nil => exact ⟨h, rfl⟩
  | cons op ops ih =>
    obtain ⟨st', ha', _⟩ := ha.step op
    have hl := ha'.len_run ops
    have hl0 := ha.len_run (op :: ops)
    simp only [Sys.run] at hsp hl0 ⊢
    have hsp' : Spare fl ((s.step fl op).1.run fl ops).1.b.tree.len
        ((s.step fl op).1.run fl ops).2 := by
      rcases hsp with h | h
      · exact .inl h
      · exact .inr (fun o ho => h o (by simp [ho]))
    have key : CurInv (s.step fl op).1.b ∧ (s.step fl op).1.b.cursor =
        s.b.cursor + if (idOf (s.step fl op).2).isSome then op.len fl else 0 := by
      rcases h.step (fl := fl) (hc op (by simp)) with ⟨h1, h2⟩ | h1
      · rcases hsp with h3 | h3
        · have := h2 (by simp only [Tree.len] at *; omega)
          rw [this, h1]
          exact ⟨h, rfl⟩
        · exact absurd h1 (h3 _ (by simp))
      · exact h1
    obtain ⟨h1, h2⟩ := ih ha' key.1 (fun o ho => hc o (by simp [ho])) hsp'
    refine ⟨h1, ?_⟩
    rw [h2, key.2, made_cons]
    unfold textLen
    split <;> simp <;> omega

end Syntree
