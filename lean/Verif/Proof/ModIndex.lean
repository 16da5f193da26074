import Verif.Proof.Index
import Verif.Proof.Obtained

/-! The index of a modified tree. -/

namespace Syntree

variable {α : Type} {fl : Flavor}

open Forest

/-- Node `i` is childless, has a non-empty span, and starts at `s`. -/
def TextAt (nodes : List (Links α)) (i s : Nat) : Prop :=
  ∃ l, nodes[i]? = some l ∧ l.first = none ∧ l.span.start < l.span.stop ∧ l.span.start = s

/-- The index lists the starts of the childless nodes with a non-empty span. -/
structure IxStarts (t : Tree α) (cursor : Nat) : Prop where
  mem : ∀ ix, ix ∈ t.indexes ↔ TextAt t.nodes ix.id ix.index
  key : (t.indexes.map (·.index)).Pairwise (· < ·)
  ids : (t.indexes.map (·.id)).Pairwise (· < ·)
  lt : ∀ ix ∈ t.indexes, ix.index < cursor

/-- A node that can get children. -/
def Hollow (nodes : List (Links α)) (p : Nat) : Prop :=
  ∃ l, nodes[p]? = some l ∧ (l.first ≠ none ∨ l.span.start = l.span.stop)

theorem TextAt.modify {nodes : List (Links α)} {i s k : Nat} {f : Links α → Links α}
    (h : ∀ l, nodes[k]? = some l → ((f l).first = none ∧ (f l).span.start < (f l).span.stop ∧
      (f l).span.start = s ↔ l.first = none ∧ l.span.start < l.span.stop ∧ l.span.start = s)) :
    TextAt (nodes.modify k f) i s ↔ TextAt nodes i s := by
  unfold TextAt
  rw [List.getElem?_modify]
  by_cases e : k = i
  · subst e
    cases hn : nodes[k]? with
    | none => simp
    | some l =>
      have := h l hn
      simp only [Option.map_eq_map, Option.map_some, Option.some.injEq, if_true]
      constructor
      · rintro ⟨l', rfl, h2⟩; exact ⟨l, rfl, this.1 h2⟩
      · rintro ⟨l', rfl, h2⟩; exact ⟨_, rfl, this.2 h2⟩
  · cases hn : nodes[i]? with
    | none => simp
    | some l => simp [e]

theorem Hollow.modify {nodes : List (Links α)} {i k : Nat} {f : Links α → Links α}
    (h : Hollow nodes i) (hf : ∀ l, nodes[k]? = some l →
      (l.first ≠ none ∨ l.span.start = l.span.stop) →
      ((f l).first ≠ none ∨ (f l).span.start = (f l).span.stop)) : Hollow (nodes.modify k f) i := by
  obtain ⟨l, h1, h2⟩ := h
  unfold Hollow
  rw [List.getElem?_modify]
  by_cases e : k = i
  · subst e
    exact ⟨f l, by simp [h1], hf l h1 h2⟩
  · exact ⟨l, by simp [h1, e], h2⟩

theorem Hollow.push {nodes : List (Links α)} {i : Nat} {l : Links α} (h : Hollow nodes i) :
    Hollow (nodes ++ [l]) i := by
  obtain ⟨l', h1, h2⟩ := h
  refine ⟨l', ?_, h2⟩
  rw [List.getElem?_append_left (List.getElem?_eq_some_iff.1 h1).1]; exact h1

theorem TextAt.push {nodes : List (Links α)} {i s : Nat} {l : Links α} :
    TextAt (nodes ++ [l]) i s ↔ TextAt nodes i s ∨
      (i = nodes.length ∧ l.first = none ∧ l.span.start < l.span.stop ∧ l.span.start = s) := by
  unfold TextAt
  rcases Nat.lt_trichotomy i nodes.length with h | h | h
  · rw [List.getElem?_append_left h]
    constructor
    · exact .inl
    · rintro (h1 | h1)
      · exact h1
      · omega
  · subst h
    simp
  · rw [List.getElem?_append_right (by omega), List.getElem?_eq_none (by simp; omega),
      List.getElem?_eq_none (by omega)]
    simp; omega

/-- What holds at the head of the loop of `modify`. -/
structure ModIx (st : ModState α) : Prop where
  ix : IxStarts st.output st.cursor
  hollow : ∀ p ∈ st.refactor.parents, Hollow st.output.nodes p.2

theorem IxStarts.congr {t t' : Tree α} {c : Nat} (h : IxStarts t c) (hi : t'.indexes = t.indexes)
    (hn : ∀ i s, TextAt t'.nodes i s ↔ TextAt t.nodes i s) : IxStarts t' c :=
  ⟨fun ix => by rw [hi, h.mem, hn], by rw [hi]; exact h.key, by rw [hi]; exact h.ids,
    by rw [hi]; exact h.lt⟩

theorem TextAt.lt {nodes : List (Links α)} {i s : Nat} (h : TextAt nodes i s) : i < nodes.length := by
  obtain ⟨l, h1, _⟩ := h; exact (List.getElem?_eq_some_iff.1 h1).1

/-- The same when a childless node with a non-empty span is added at the cursor. -/
theorem IxStarts.grow {t t' : Tree α} {c c' : Nat} (h : IxStarts t c)
    (hi : t'.indexes = t.indexes ++ [⟨c, t.nodes.length⟩]) (hc : c < c')
    (hn : ∀ i s, TextAt t'.nodes i s ↔ TextAt t.nodes i s ∨ (i = t.nodes.length ∧ c = s)) :
    IxStarts t' c' := by
  refine ⟨fun ix => ?_, ?_, ?_, ?_⟩
  · rw [hi, hn, List.mem_append, h.mem, List.mem_singleton]
    constructor
    · rintro (h1 | rfl)
      · exact .inl h1
      · exact .inr ⟨rfl, rfl⟩
    · rintro (h1 | ⟨h1, h2⟩)
      · exact .inl h1
      · right; cases ix; simp_all
  · rw [hi, List.map_append, List.pairwise_append]
    refine ⟨h.key, by simp, ?_⟩
    intro a ha b hb
    obtain ⟨x, hx, rfl⟩ := List.mem_map.1 ha
    simp at hb
    subst hb
    exact h.lt x hx
  · rw [hi, List.map_append, List.pairwise_append]
    refine ⟨h.ids, by simp, ?_⟩
    intro a ha b hb
    obtain ⟨x, hx, rfl⟩ := List.mem_map.1 ha
    simp at hb
    subst hb
    exact ((h.mem x).1 hx).lt
  · intro ix hix
    rw [hi, List.mem_append, List.mem_singleton] at hix
    rcases hix with h1 | rfl
    · have := h.lt ix h1; omega
    · exact hc

theorem step_hollow {nodes : Slice α} {r : RefactorWalk} {node nodeId : Nat}
    {P : Nat → Prop} (h : ∀ p ∈ r.parents, P p.2)
    (h2 : nodeFirst nodes node ≠ none → P nodeId) :
    ∀ p ∈ (r.step nodes node nodeId).1.parents, P p.2 := by
  have asc : ∀ (prev : Option Nat) (l : List (Nat × Nat)), (∀ p ∈ l, P p.2) →
      ∀ p ∈ (RefactorWalk.ascend nodes prev l).1.parents, P p.2 := by
    intro prev l
    induction l with
    | nil => intro _ p hp; simp [RefactorWalk.ascend] at hp
    | cons a l ih =>
      intro hl p hp
      unfold RefactorWalk.ascend at hp
      split at hp
      · exact hl p (List.mem_cons_of_mem _ hp)
      · exact ih (fun q hq => hl q (List.mem_cons_of_mem _ hq)) p hp
  intro p hp
  unfold RefactorWalk.step at hp
  split at hp
  · rename_i next hn
    rcases List.mem_cons.1 hp with rfl | hp
    · exact h2 (by rw [hn]; simp)
    · exact h p hp
  · split at hp
    · exact h p hp
    · exact asc _ _ h p hp

theorem ModIx.skip {nodes : Slice α} {st : ModState α} (h : ModIx st) (node : Nat) (first : Bool)
    (cur : Option (Nat × Bool)) :
    ModIx { st with refactor := (st.refactor.skipSubtree nodes node first).1, current := cur } := by
  refine ⟨h.ix, fun p hp => h.hollow p ?_⟩
  revert hp
  simp only [RefactorWalk.skipSubtree]
  split
  · exact id
  · split
    · exact id
    · rename_i heq
      intro hp
      rw [heq]
      exact List.mem_cons_of_mem _ hp

theorem add_bits {w a b c : Nat} (h : (IndexKind.bits w).checkedAddLen a b = some c) : c = a + b := by
  unfold IndexKind.checkedAddLen at h
  split at h <;> simp_all

theorem ModIx.emit {nodes : Slice α} {st st' : ModState α} {nodeId node : Nat} {first : Bool}
    {w : Nat} (hk : fl.keepIdx = true) (hik : fl.ik = .bits w)
    (hin : ∀ (i : Nat) l, nodes[i]? = some l → l.span.start ≤ l.span.stop) (h : ModIx st)
    (hid : nodeId = st.output.nodes.length)
    (he : ModState.emit fl nodes st nodeId node first = .ok st') : ModIx st' := by
  unfold ModState.emit at he
  cases hnode : nodes[node]? with
  | none => rw [hnode] at he; simp at he
  | some links =>
    rw [hnode] at he
    simp only at he
    -- the root links
    generalize hout : (if st.refactor.parents.isEmpty then
        { st.output with
          first := if st.output.first.isNone then some nodeId else st.output.first
          last := some nodeId }
      else st.output) = out at he
    have ho1 : out.nodes = st.output.nodes := by subst hout; split <;> rfl
    have ho2 : out.indexes = st.output.indexes := by subst hout; split <;> rfl
    -- the previous sibling
    have hnf : links.first = none → nodeFirst nodes node = none := by
      intro q; simp [nodeFirst, follow, hnode, q]
    generalize hprev : (if first = true then (out, st.refactor, none)
      else (out.modifyOpt st.refactor.prev (fun l => { l with next := some nodeId }),
          { st.refactor with prev := none }, st.refactor.prev)) = tr at he
    obtain ⟨out2, refactor, prev⟩ := tr
    have hr : refactor.parents = st.refactor.parents := by
      split at hprev <;> cases hprev <;> rfl
    have hx : out2.indexes = st.output.indexes ∧ out2.nodes.length = st.output.nodes.length ∧
        (∀ i s, TextAt out2.nodes i s ↔ TextAt st.output.nodes i s) ∧
        (∀ i, Hollow st.output.nodes i → Hollow out2.nodes i) := by
      split at hprev
      · cases hprev
        rw [ho1, ho2]
        exact ⟨rfl, rfl, fun _ _ => Iff.rfl, fun _ h => h⟩
      · cases hprev
        rw [modifyOpt_indexes, ho2, modifyOpt_nodes]
        cases st.refactor.prev with
        | none => rw [ho1]; exact ⟨rfl, rfl, fun _ _ => Iff.rfl, fun _ h => h⟩
        | some q =>
          rw [ho1]
          exact ⟨rfl, by simp, fun _ _ => TextAt.modify fun _ _ => Iff.rfl,
            fun _ h => h.modify fun _ _ h => h⟩
    obtain ⟨hx1, hx2, hx3, hx4⟩ := hx
    have base : IxStarts out2 st.cursor := h.ix.congr hx1 hx3
    have hol : ∀ p ∈ refactor.parents, Hollow out2.nodes p.2 := by
      rw [hr]; exact fun p hp => hx4 _ (h.hollow p hp)
    -- the parent
    have key : ∀ (out3 : Tree α) (span : Span), out3.nodes = out2.nodes →
        (∀ i s, TextAt (out3.modifyOpt (refactor.parents.head?.map (·.2)) (fun p =>
          { p with
            first := if p.first.isNone then some nodeId else p.first
            last := some nodeId
            span := { p.span with stop := span.stop } })).nodes i s ↔ TextAt out2.nodes i s) ∧
        (∀ i, Hollow out2.nodes i → Hollow (out3.modifyOpt (refactor.parents.head?.map (·.2))
          (fun p => { p with
            first := if p.first.isNone then some nodeId else p.first
            last := some nodeId
            span := { p.span with stop := span.stop } })).nodes i) ∧
        (out3.modifyOpt (refactor.parents.head?.map (·.2)) (fun p =>
          { p with
            first := if p.first.isNone then some nodeId else p.first
            last := some nodeId
            span := { p.span with stop := span.stop } })).nodes.length = out2.nodes.length := by
      intro out3 span h3
      rw [modifyOpt_nodes]
      cases hp : refactor.parents with
      | nil => simp only [List.head?_nil, Option.map_none]; rw [h3]; exact ⟨fun _ _ => Iff.rfl, fun _ h => h, rfl⟩
      | cons p ps =>
        simp only [List.head?_cons, Option.map_some]
        rw [h3]
        have hfirst : ∀ l : Links α, (if l.first.isNone = true then some nodeId else l.first) ≠ none := by
          intro l; cases l.first <;> simp
        refine ⟨fun i s => TextAt.modify ?_, fun i h => h.modify ?_, by simp⟩
        · intro l hl
          obtain ⟨l', e1, e2⟩ := hol p (by rw [hp]; simp)
          rw [hl] at e1
          cases e1
          constructor
          · rintro ⟨q, _⟩; exact absurd q (hfirst l)
          · rintro ⟨q1, q2, _⟩
            rcases e2 with e2 | e2
            · exact absurd q1 e2
            · omega
        · intro l _ _
          exact .inl (hfirst l)
    by_cases hleaf : (links.first.isNone && ! links.span.isEmpty) = true
    · rw [if_pos hleaf] at he
      simp only [Bool.and_eq_true, Option.isNone_iff_eq_none, Bool.not_eq_true', Span.isEmpty,
        beq_eq_false_iff_ne, ne_eq] at hleaf
      have hle := hin node links hnode
      cases hadd : fl.ik.checkedAddLen st.cursor (links.span.len fl.ik) with
      | none => rw [hadd] at he; simp at he
      | some c =>
        rw [hadd] at he
        simp only at he
        have hc : c = st.cursor + (links.span.stop - links.span.start) := by
          rw [hik] at hadd
          exact add_bits hadd
        obtain ⟨k1, k2, k3⟩ := key (out2.pushIndex fl ⟨st.cursor, nodeId⟩) (Span.new st.cursor c)
          (by simp [Tree.pushIndex, hk])
        cases he
        refine ⟨base.grow (c' := c) ?_ (by omega) ?_, ?_⟩
        · simp only [Tree.push, modifyOpt_indexes, Tree.pushIndex, hk, if_true]
          rw [hid, hx2]
        · intro i s
          simp only [Tree.push]
          rw [TextAt.push, k1, k3]
          simp only [Span.new, true_and]
          constructor
          · rintro (q | q)
            · exact .inl q
            · exact .inr ⟨q.1, q.2.2⟩
          · rintro (q | q)
            · exact .inl q
            · exact .inr ⟨q.1, by omega, q.2⟩
        · simp only [Tree.push]
          refine step_hollow (P := fun i => Hollow _ i) (fun p hp => (k2 _ (hol p hp)).push) ?_
          intro hne
          exact absurd (hnf hleaf.1) hne
    · rw [if_neg hleaf] at he
      simp only at he
      obtain ⟨k1, k2, k3⟩ := key out2 (Span.point st.cursor) rfl
      cases he
      refine ⟨base.congr (by simp [Tree.push, modifyOpt_indexes]) ?_, ?_⟩
      · intro i s
        simp only [Tree.push]
        rw [TextAt.push, k1]
        simp only [Span.point, Nat.lt_irrefl, false_and, and_false, or_false]
      · simp only [Tree.push]
        refine step_hollow (P := fun i => Hollow _ i) (fun p hp => (k2 _ (hol p hp)).push) ?_
        intro _
        refine ⟨_, (by
          rw [List.getElem?_append_right (by rw [k3]; omega), k3, hid, hx2, Nat.sub_self]; rfl :
            _ = some _), .inr rfl⟩

theorem ModIx.loop {nodes : Slice α} {changes : List Nat} {w : Nat} (hk : fl.keepIdx = true)
    (hik : fl.ik = .bits w)
    (hin : ∀ (i : Nat) l, nodes[i]? = some l → l.span.start ≤ l.span.stop) (fuel : Nat) :
    ∀ {st st' : ModState α}, ModIx st → ModState.loop fl changes nodes fuel st = .ok st' →
      ModIx st' := by
  induction fuel with
  | zero => intro st st' _ he; simp [ModState.loop] at he
  | succ fuel ih =>
    intro st st' h he
    unfold ModState.loop at he
    split at he
    · cases he; exact h
    · rename_i node first _
      split at he
      · simp at he
      · rename_i nodeId hp
        have hid : nodeId = st.output.nodes.length := by
          rw [ptrNew_eq, Tree.len] at hp
          split at hp <;> simp_all
        split at he
        · split at he
          · rename_i r heq
            have := h.skip (nodes := nodes) node first none
            rw [heq] at this
            exact ih this he
          · rename_i r node' first' heq
            have := h.skip (nodes := nodes) node first st.current
            rw [heq] at this
            split at he
            · simp at he
            · rename_i st2 hem
              exact ih (this.emit hk hik hin hid hem) he
        · split at he
          · simp at he
          · rename_i st2 hem
            exact ih (h.emit hk hik hin hid hem) he

theorem modify_starts {c : ChangeSet} {t t' : Tree α} {w : Nat} (hk : fl.keepIdx = true)
    (hik : fl.ik = .bits w)
    (hin : ∀ (i : Nat) l, t.nodes[i]? = some l → l.span.start ≤ l.span.stop)
    (hm : c.modify fl t = .ok t') : IxStarts t' t'.span.stop := by
  unfold ChangeSet.modify at hm
  simp only at hm
  split at hm
  · simp at hm
  · rename_i st hl
    cases hm
    have h0 : ModIx (⟨Tree.empty, ⟨[], none⟩, 0, t.firstNode.map (·, false)⟩ : ModState α) := by
      refine ⟨⟨?_, by simp [Tree.empty], by simp [Tree.empty], by simp [Tree.empty]⟩, by simp⟩
      intro ix; simp [Tree.empty, TextAt]
    have := (h0.loop hk hik hin _ hl).ix
    exact ⟨this.mem, this.key, this.ids, this.lt⟩

/-- A query goes to the first entry beyond its start, and then climbs. -/
theorem Represents.query {g : Bool} {t : Tree α} {F : Forest (Lab α)} (h : Represents g t F)
    {search : List TreeIndex → Nat → Search} (hsearch : SearchSpec search)
    (hs : (t.indexes.map (·.index)).Pairwise (· < ·)) (hlt : ∀ ix ∈ t.indexes, ix.id < t.len)
    (s e : Nat) :
    (t.indexes.find? (fun x => s < x.index) = none ∧ t.nodeWithSpan search ⟨s, e⟩ = .none) ∨
    ∃ ix anc left x kids right, t.indexes.find? (fun x => s < x.index) = some ix ∧
      Loc F anc left x kids right ∧ x.id = ix.id ∧
      t.nodeWithSpan search ⟨s, e⟩ = .some (enclosing t e x.id (anc.map (·.id))) := by
  have hfind := hsearch.find (L := t.indexes) hs s
  simp only [Tree.nodeWithSpan, Tree.nodeWithSpanInternal]
  rw [hfind]
  cases hq : t.indexes.find? (fun x => decide (s < x.index)) with
  | none => left; exact ⟨rfl, rfl⟩
  | some ix =>
    right
    have hl := hlt ix (List.mem_of_find?_eq_some hq)
    have hmem : ix.id ∈ F.ids := by
      rw [h.perm.mem_iff]; simpa [Tree.len] using hl
    obtain ⟨anc, left, x, kids, right, hx, hloc⟩ := Loc.of_id hmem
    refine ⟨ix, anc, left, x, kids, right, rfl, hloc, hx, ?_⟩
    have hget : t.get x.id = some x.id := (h.node_get hloc).1
    rw [hx] at hget
    simp only [hget]
    have hd := hloc.depth_lt
    have hsz := h.size
    simp only [Forest.size] at hd
    rw [← hx]
    exact h.climb e anc hloc (by omega)

end Syntree
