import Verif.Model.Cost
import Verif.Spec.Cost
import Verif.Proof.Inside
import Verif.Proof.Refine
import Verif.Proof.Index

namespace Syntree

open Forest

variable {α : Type}

/-! ## The counts are the numbers of rounds of the loops of the model -/

theorem rounds_succ {β : Type} {loop loop' : Nat → β} {cut : β → Prop} {n : Nat}
    (h0 : cut (loop 0)) (h : ∀ m, loop (m + 1) = loop' m) (hr : Rounds loop' cut n) :
    Rounds loop cut (1 + n) := by
  obtain ⟨h1, h2⟩ := hr
  rw [Nat.add_comm]
  refine ⟨by rw [h]; exact h1, fun m hm => ?_⟩
  cases m with
  | zero => exact h0
  | succ m => rw [h]; exact h2 m (by omega)

theorem rounds_one {β : Type} {loop : Nat → β} {cut : β → Prop}
    (h0 : cut (loop 0)) (h : ¬ cut (loop 1)) : Rounds loop cut 1 :=
  ⟨h, fun m hm => by rw [show m = 0 by omega]; exact h0⟩

theorem restructure_rounds (p : Nat) (fuel : Nat) : ∀ (nodes : List (Links α)) (cur : Nat),
    (restructure p fuel nodes cur).2 ≠ .error .diverge →
    Rounds (fun m => (restructure p m nodes cur).2) (· = .error .diverge)
      (restructureSteps p fuel nodes cur) := by
  induction fuel with
  | zero => intro nodes cur h; exact absurd rfl h
  | succ fuel ih =>
    intro nodes cur h
    simp only [restructure, restructureSteps] at h ⊢
    cases hc : nodes[cur]? with
    | none =>
      exact rounds_one rfl (by simp [restructure, hc])
    | some links =>
      rw [hc] at h
      simp only at h ⊢
      cases hn : links.next with
      | none => exact rounds_one rfl (by simp [restructure, hc, hn])
      | some next =>
        rw [hn] at h
        refine rounds_succ rfl (fun m => ?_) (ih _ _ h)
        simp [restructure, hc, hn]

theorem walk_rounds (nodes : Slice α) (fuel : Nat) : ∀ (w : WalkEvents),
    (Walk.nextLoop nodes fuel w).2 ≠ .diverge →
    Rounds (fun m => (Walk.nextLoop nodes m w).2) (· = .diverge) (Walk.steps nodes fuel w) := by
  induction fuel with
  | zero => intro w h; exact absurd rfl h
  | succ fuel ih =>
    intro w h
    rcases e : WalkEvents.next nodes w with ⟨w', _ | ⟨ev, n⟩ | _⟩
    · simp only [Walk.steps, e]
      exact rounds_one rfl (by simp [Walk.nextLoop, e])
    · by_cases hu : ev = .up
      · simp only [Walk.nextLoop, Walk.steps, e, hu, ne_eq, not_true_eq_false, if_false] at h ⊢
        refine rounds_succ rfl (fun m => ?_) (ih w' h)
        simp [Walk.nextLoop, e, hu]
      · simp only [Walk.steps, e, hu, ne_eq, not_false_eq_true, if_true]
        exact rounds_one rfl (by simp [Walk.nextLoop, e, hu])
    · simp [Walk.nextLoop, e] at h

theorem inside_rounds (nodes : Slice α) (fuel : Nat) : ∀ (w : WalkEvents),
    (Inside.nextLoop nodes fuel w).2 ≠ .diverge →
    Rounds (fun m => (Inside.nextLoop nodes m w).2) (· = .diverge) (Inside.steps nodes fuel w) := by
  induction fuel with
  | zero => intro w h; exact absurd rfl h
  | succ fuel ih =>
    intro w h
    rcases e : WalkEvents.next nodes w with ⟨w', _ | ⟨ev, n⟩ | _⟩
    · simp only [Inside.steps, e]
      exact rounds_one rfl (by simp [Inside.nextLoop, e])
    · by_cases hu : ev = .up
      · simp only [Inside.nextLoop, Inside.steps, e, hu, ne_eq, not_true_eq_false, if_false] at h ⊢
        refine rounds_succ rfl (fun m => ?_) (ih _ h)
        simp [Inside.nextLoop, e, hu]
      · simp only [Inside.steps, e, hu, ne_eq, not_false_eq_true, if_true]
        exact rounds_one rfl (by simp [Inside.nextLoop, e, hu])
    · simp [Inside.nextLoop, e] at h

theorem climb_rounds (nodes : Slice α) (stop : Nat) (fuel : Nat) : ∀ (n : Nat),
    climb nodes stop fuel n ≠ .diverge →
    Rounds (fun m => climb nodes stop m n) (· = .diverge) (climbSteps nodes stop fuel n) := by
  induction fuel with
  | zero => intro w h; exact absurd rfl h
  | succ fuel ih =>
    intro n h
    simp only [climb, Syntree.climbSteps] at h ⊢
    cases hp : nodeParent nodes n with
    | none => exact rounds_one rfl (by simp [climb, hp])
    | some q =>
      rw [hp] at h
      simp only at h ⊢
      cases hq : nodeSpan nodes q with
      | none => exact rounds_one rfl (by simp [climb, hp, hq])
      | some sp =>
        rw [hq] at h
        simp only at h ⊢
        by_cases hs : sp.stop ≥ stop
        · rw [if_pos hs]; exact rounds_one rfl (by simp [climb, hp, hq, hs])
        · rw [if_neg hs] at h ⊢
          refine rounds_succ rfl (fun m => ?_) (ih q h)
          simp [climb, hp, hq, hs]

/-! ## Walks -/

/-- One call of `Walk::next`, with its steps. -/
theorem Rest.walkLoop {nodes : Slice α} {w : WalkEvents} {l : List (Int × Event × Nat)}
    (h : Rest nodes w l) (fuel : Nat) (hf : ups l < fuel) :
    (visited l = [] ∧ Walk.steps nodes fuel w = l.length + 1 ∧
      ∃ w', Walk.nextLoop nodes fuel w = (w', .none)) ∨
    (∃ d n l' w', visited l = (d, n) :: visited l' ∧ ups l' ≤ ups l ∧
      Walk.steps nodes fuel w + l'.length = l.length ∧ l'.length < l.length ∧
      Walk.nextLoop nodes fuel w = (w', .some n) ∧ Rest nodes w' l') := by
  induction h generalizing fuel with
  | @done w hn =>
    left
    cases fuel with
    | zero => simp at hf
    | succ fuel =>
      exact ⟨rfl, by simp [Walk.steps, next_of_none hn], w, by simp [Walk.nextLoop, next_of_none hn]⟩
  | @item w w' e n l he hr ih =>
    cases fuel with
    | zero => simp at hf
    | succ fuel =>
      rw [ups_cons] at hf
      by_cases hu : e = .up
      · subst hu
        simp only [if_true] at hf
        rcases ih fuel (by omega) with ⟨h1, h2, w'', h3⟩ | ⟨d, m, l', w'', h1, h2, h3, h4, h5, h6⟩
        · left
          refine ⟨by rw [visited_up, h1], ?_, w'', by simp [Walk.nextLoop, he, h3]⟩
          simp [Walk.steps, he, h2]; omega
        · right
          refine ⟨d, m, l', w'', by rw [visited_up, h1], ?_, ?_, ?_, by simp [Walk.nextLoop, he, h5], h6⟩
          · rw [ups_cons]; omega
          · simp [Walk.steps, he]; omega
          · simp; omega
      · right
        refine ⟨w.depth, n, l, w', visited_other _ hu _ _, ?_, ?_, by simp, ?_, hr⟩
        · rw [ups_cons]; omega
        · simp [Walk.steps, he, hu]; omega
        · simp [Walk.nextLoop, he, hu]

theorem Rest.walkSpends {nodes : Slice α} (fuel : Nat) (l : List (Int × Event × Nat)) :
    ∀ {w : WalkEvents}, Rest nodes w l → ups l < fuel →
    Spends (Walk.nextLoop nodes fuel) (Walk.steps nodes fuel) w ((visited l).map (·.2))
      (l.length + 1) := by
  induction hn : l.length using Nat.strongRecOn generalizing l with
  | _ n ih =>
    intro w h hf
    rcases h.walkLoop fuel hf with ⟨h1, h2, w', h3⟩ | ⟨d, m, l', w', h1, h2, h3, h4, h5, h6⟩
    · rw [h1, ← hn, ← h2]
      exact .done h3
    · rw [h1]
      have := ih _ (by omega) l' rfl h6 (by omega)
      have := Spends.item (cost := Walk.steps nodes fuel) h5 this
      rw [show n + 1 = Walk.steps nodes fuel w + (l'.length + 1) by omega]
      exact this

/-- How many events of a trace there are: one for each node, and one for each node with children. -/
theorem devents_length (e : Event) (d : Int) (F : Forest (Lab α)) :
    (devents e d F).length + F.leaves.length = 2 * F.size := by
  induction F generalizing e d with
  | nil => rfl
  | cons x k r ihk ihr =>
    have hr := ihr .next d
    by_cases hk : k = .nil
    · subst hk
      rw [devents_leaf]
      simp [leaves, size]; omega
    · have hkk := ihk .down (d + 1)
      rw [devents_inner _ _ _ hk]
      have : (Forest.cons x k r).leaves = k.leaves ++ r.leaves := by
        cases k with
        | nil => exact absurd rfl hk
        | cons => rfl
      rw [this]
      simp [size]; omega

theorem leaves_inner (F : Forest α) : F.leaves.length + F.inner.length = F.size := by
  induction F with
  | nil => rfl
  | cons x k r ihk ihr =>
    cases k with
    | nil => simp [leaves, inner, size]; omega
    | cons y k' r' =>
      simp only [leaves, inner, size, List.length_append, List.length_cons] at *
      omega

/-! ## `Inside` -/

theorem Trace.insideCost {nodes : Slice α} {w w' : WalkEvents} {l : List (Int × Event × Nat)}
    (h : Trace nodes 1 w l w') (hw : w'.depth ≤ 0) (fuel : Nat) (hf : ups l < fuel) :
    (visited l = [] ∧ Inside.nextLoop nodes fuel w = (WalkEvents.default, .none) ∧
      Inside.steps nodes fuel w = l.length + 1) ∨
    (∃ n, (visited l).map (·.2) = [n] ∧
      Inside.nextLoop nodes fuel w = (WalkEvents.default, .some n) ∧
      Inside.steps nodes fuel w = l.length) ∨
    (∃ n l' w'', (visited l).map (·.2) = n :: (visited l').map (·.2) ∧ ups l' ≤ ups l ∧
      Inside.steps nodes fuel w + l'.length = l.length ∧ l'.length < l.length ∧
      Inside.nextLoop nodes fuel w = (w'', .some n) ∧ Trace nodes 1 w'' l' w') := by
  induction h generalizing fuel with
  | @one w w' e n he =>
    cases fuel with
    | zero => simp at hf
    | succ fuel =>
      by_cases hu : e = .up
      · subst hu
        left
        rw [ups_cons] at hf
        simp only [if_true] at hf
        cases fuel with
        | zero => omega
        | succ fuel =>
          have hd : WalkEvents.next nodes WalkEvents.default = (WalkEvents.default, .none) := rfl
          refine ⟨by rw [visited_up]; rfl, by simp [Inside.nextLoop, he, hw, hd], ?_⟩
          simp [Inside.steps, he, hw, hd]
      · right; left
        refine ⟨n, by rw [visited_other _ hu]; rfl, by simp [Inside.nextLoop, he, hw, hu], ?_⟩
        simp [Inside.steps, he, hu]
  | @cons w w1 w2 e n l he hd htr ih =>
    cases fuel with
    | zero => simp at hf
    | succ fuel =>
      rw [ups_cons] at hf
      have hd' : ¬ w1.depth ≤ 0 := by omega
      by_cases hu : e = .up
      · subst hu
        simp only [if_true] at hf
        have hstep : Inside.nextLoop nodes (fuel + 1) w = Inside.nextLoop nodes fuel w1 := by
          simp [Inside.nextLoop, he, hd']
        have hcost : Inside.steps nodes (fuel + 1) w = 1 + Inside.steps nodes fuel w1 := by
          simp [Inside.steps, he, hd']
        rw [hstep, hcost, visited_up, List.length_cons]
        rcases ih hw fuel (by omega) with ⟨h1, h2, h3⟩ | ⟨m, h1, h2, h3⟩ |
          ⟨m, l', w'', h1, h2, h3, h4, h5, h6⟩
        · exact .inl ⟨h1, h2, by omega⟩
        · exact .inr (.inl ⟨m, h1, h2, by omega⟩)
        · exact .inr (.inr ⟨m, l', w'', h1, by rw [ups_cons]; omega, by omega, by omega, h5, h6⟩)
      · right; right
        refine ⟨n, l, w1, by rw [visited_other _ hu]; rfl, by rw [ups_cons]; omega, ?_, by simp, ?_, htr⟩
        · simp [Inside.steps, he, hu]; omega
        · simp [Inside.nextLoop, he, hd', hu]

theorem inside_default_spends (nodes : Slice α) (fuel : Nat) :
    Spends (Inside.nextLoop nodes (fuel + 1)) (Inside.steps nodes (fuel + 1)) WalkEvents.default []
      1 := by
  have e : Inside.steps nodes (fuel + 1) WalkEvents.default = 1 := by
    simp [Inside.steps, WalkEvents.next, WalkEvents.default]
  have : Spends (Inside.nextLoop nodes (fuel + 1)) (Inside.steps nodes (fuel + 1))
      WalkEvents.default [] (Inside.steps nodes (fuel + 1) WalkEvents.default) :=
    .done (s' := WalkEvents.default) (by simp [Inside.nextLoop, WalkEvents.next, WalkEvents.default])
  rwa [e] at this

theorem Trace.insideSpends {nodes : Slice α} (fuel : Nat) (l : List (Int × Event × Nat)) :
    ∀ {w w' : WalkEvents}, Trace nodes 1 w l w' → w'.depth ≤ 0 → ups l < fuel →
    Spends (Inside.nextLoop nodes fuel) (Inside.steps nodes fuel) w ((visited l).map (·.2))
      (l.length + 1) := by
  induction hn : l.length using Nat.strongRecOn generalizing l with
  | _ n ih =>
    intro w w' h hw hf
    have hfuel : ∃ k, fuel = k + 1 := ⟨fuel - 1, by omega⟩
    rcases h.insideCost hw fuel hf with ⟨h1, h2, h3⟩ | ⟨m, h1, h2, h3⟩ |
      ⟨m, l', w'', h1, h2, h3, h4, h5, h6⟩
    · rw [h1, ← hn, ← h3]; exact .done h2
    · rw [h1, ← hn, ← h3]
      refine .item h2 ?_
      obtain ⟨k, rfl⟩ := hfuel
      exact inside_default_spends nodes k
    · rw [h1, show n + 1 = Inside.steps nodes fuel w + (l'.length + 1) by omega]
      exact .item h5 (ih _ (by omega) l' rfl h6 hw (by omega))

theorem Represents.insideSpends {g : Bool} {t : Tree α} {F : Forest (Lab α)} (h : Represents g t F)
    {anc : List (Lab α)} {left kids right : Forest (Lab α)} {x : Lab α}
    (hl : Loc F anc left x kids right) :
    ∃ n, Spends (Inside.next t.nodes) (Inside.steps t.nodes (t.nodes.length + 1)) (nodeWalk x.id)
      (x.id :: kids.ids) n ∧ n + kids.leaves.length = 2 * kids.size + 2 := by
  obtain ⟨l, hl', hx⟩ := hl.links h.root
  have hexit : ∀ par nxt, (exitState par nxt 0).depth ≤ 0 := by
    intro par nxt; cases nxt <;> simp [exitState]
  have hpos : 0 < t.nodes.length := by
    have := (List.getElem?_eq_some_iff.1 hx).1
    omega
  by_cases hk : kids = .nil
  · subst hk
    have hs := step_leaf hx .next 0
    have e1 : Inside.steps t.nodes (t.nodes.length + 1) (nodeWalk x.id) = 1 := by
      simp only [Inside.steps, nodeWalk, WalkEvents.new, Option.map_some, hs]
      simp
    refine ⟨1 + 1, ?_, by simp [leaves]; rfl⟩
    rw [show (1 + 1 : Nat) = Inside.steps t.nodes (t.nodes.length + 1) (nodeWalk x.id) + 1 by rw [e1]]
    refine .item (s' := WalkEvents.default) ?_ (inside_default_spends _ _)
    simp only [Inside.next, Inside.nextLoop, nodeWalk, WalkEvents.new, Option.map_some, hs]
    simp [hexit]
  · obtain ⟨f, hf⟩ : ∃ f, kids.headId = some f := by
      cases kids with
      | nil => exact absurd rfl hk
      | cons y _ _ => exact ⟨y.id, rfl⟩
    rw [hf] at hx
    have hs := step_down hx (e := .next) (by simp) 0
    have ht := trace_seg kids (0 + 1) (hl.kids h.root) (e := .down) (by simp) hf
    have hd : (exitState (some x.id) none (0 + 1)).depth ≤ 0 := by simp [exitState]
    have hu : ups (devents .down (0 + 1) kids) < t.nodes.length + 1 := by
      have h1 := ups_devents .down (by simp) (0 + 1) kids
      obtain ⟨pre, post, e⟩ := hl.split
      have h2 : F.size = t.nodes.length := h.size
      rw [← preorder_length, e] at h2
      have h3 := preorder_length kids
      simp at h2
      omega
    have := Trace.insideSpends (t.nodes.length + 1) _ (ht.mono (by omega)) hd hu
    rw [visited_ids _ (by simp)] at this
    have e1 : Inside.steps t.nodes (t.nodes.length + 1) (nodeWalk x.id) = 1 := by
      simp only [Inside.steps, nodeWalk, WalkEvents.new, Option.map_some, hs]
      simp
    have hlen := devents_length .down (0 + 1) kids
    refine ⟨1 + ((devents .down (0 + 1) kids).length + 1), ?_, by omega⟩
    have hstep : Inside.next t.nodes (nodeWalk x.id) = (⟨some (f, .down), 0 + 1⟩, .some x.id) := by
      simp only [Inside.next, Inside.nextLoop, nodeWalk, WalkEvents.new, Option.map_some, hs]
      simp
    have hall := Spends.item (next := Inside.next t.nodes)
      (cost := Inside.steps t.nodes (t.nodes.length + 1)) hstep this
    rwa [e1] at hall

/-! ## Range queries -/

theorem Represents.climbSteps {g : Bool} {t : Tree α} {F : Forest (Lab α)} (h : Represents g t F)
    (stop : Nat) (anc : List (Lab α)) : ∀ {left kids right : Forest (Lab α)} {x : Lab α} (fuel : Nat),
    Loc F anc left x kids right →
    climbSteps t.nodes stop fuel x.id ≤ anc.length + 1 := by
  induction anc with
  | nil =>
    intro left kids right x fuel hl
    have hpar : nodeParent t.nodes x.id = none := h.node_parent hl
    cases fuel <;> simp [Syntree.climbSteps, hpar]
  | cons q anc ih =>
    intro left kids right x fuel hl
    have hpar : nodeParent t.nodes x.id = some q.id := h.node_parent hl
    obtain ⟨l, r, hq⟩ := hl.parent
    cases fuel with
    | zero => simp [Syntree.climbSteps]
    | succ fuel =>
      have := ih fuel hq
      simp only [Syntree.climbSteps, hpar, List.length_cons]
      split
      · omega
      · split <;> omega

/-! ## Building -/

theorem restructureSteps_spec {g : Bool} (newId : Nat) (nodes : List (Links α)) (x : Lab α)
    (k r : Forest (Lab α)) (par prev : Option Nat) (fuel : Nat)
    (h : Seg g nodes (.cons x k r) par prev none) (nd : (Forest.cons x k r).ids.Nodup)
    (hf : (Forest.cons x k r).tops.length ≤ fuel) :
    restructureSteps newId fuel nodes x.id = (Forest.cons x k r).tops.length := by
  induction fuel generalizing nodes x k r prev with
  | zero => simp at hf
  | succ fuel ih =>
    obtain ⟨⟨l, hl, hx⟩, hk, hr⟩ := h
    rw [ids_cons, List.nodup_cons, List.mem_append, List.nodup_append] at nd
    obtain ⟨h1, h2, h3, h4⟩ := nd
    rw [restructureSteps, hx]
    cases r with
    | nil => simp [mkLinks, tops]
    | cons y k' r' =>
      have hr' : Seg g (nodes.set x.id
          { mkLinks x par prev (some y.id) k.headId l with parent := some newId })
          (.cons y k' r') par (some x.id) none := by
        refine hr.congr ?_
        intro i hi
        have : x.id ≠ i := fun he => h1 (Or.inr (he ▸ hi))
        simp [this]
      have := ih _ y k' r' (some x.id) hr' h3 (by simpa using hf)
      simp only [mkLinks, headId_cons, Option.some_or] at this ⊢
      rw [this]
      simp; omega

/-- The steps of `close_at` in a state of the nested-list machine. -/
theorem Rel.closeAtSteps {g : Bool} {s : Sys α} {n : Nest α} (h : Rel g s n) (fl : Flavor)
    {k c : Nat} {m : Mark} (hm : n.marks[k]? = some m) (hk : s.handles[k]? = some c)
    (hl : m.live = true ∨ m.frame ≠ n.frame ∨ n.full fl = true) :
    (s.b.closeAtSteps fl s.cells c = 0 ∧
      (m.frame ≠ n.frame ∨ n.full fl = true ∨ n.cur.drop m.pos = .nil)) ∨
    (m.frame = n.frame ∧ n.full fl = false ∧ m.live = true ∧
      s.b.closeAtSteps fl s.cells c + 1 = (n.cur.drop m.pos).tops.length) := by
  obtain ⟨cell, c1, c2, c3, c4, c5⟩ := h.marks.cell k c m hk hm
  unfold Builder.closeAtSteps
  rw [c1]
  simp only
  by_cases hfr : m.frame = n.frame
  · rw [if_neg (by rw [c2, h.parent]; simpa using hfr)]
    by_cases hc : n.count < 2 ^ fl.width - 1
    · have hnf : ¬ (n.full fl = true) := not_full_iff.2 hc
      have hlive : m.live = true := by
        rcases hl with h | h | h
        · exact h
        · exact absurd hfr h
        · exact absurd h hnf
      have hsl := c3 hlive _ (by rw [hfr]; exact slots_self _ _)
      have hsplit := take_append_drop m.pos n.cur
      simp only [Tree.len, h.tree.len]
      rw [ptrNew_eq, if_pos hc]
      simp only
      cases hd : n.cur.drop m.pos with
      | nil =>
        have hpos : n.cur.topIds.length ≤ m.pos := by
          have h1 : (n.cur.drop m.pos).tops = [] := by rw [hd]; rfl
          rw [tops_drop] at h1
          rw [topIds_length]
          exact List.drop_eq_nil_iff.1 h1
        have hnode : cell.node = n.count := by
          rw [List.getElem?_append_right hpos] at hsl
          have := (List.getElem?_eq_some_iff.1 hsl).1
          simp only [List.length_singleton, Nat.lt_one_iff] at this
          rw [this] at hsl; simpa using hsl.symm
        have : s.b.tree.nodes[cell.node]? = none := by
          rw [List.getElem?_eq_none_iff, h.tree.len, hnode]; exact Nat.le_refl _
        rw [this]; simp
      | cons y ky r =>
        right
        refine ⟨hfr, by simpa using hnf, hlive, ?_⟩
        have hpos : m.pos < n.cur.topIds.length := by
          rcases Nat.lt_or_ge m.pos n.cur.topIds.length with h | h
          · exact h
          · exfalso
            have h1 : (n.cur.drop m.pos).tops ≠ [] := by rw [hd]; simp
            apply h1
            rw [tops_drop, List.drop_eq_nil_iff, ← topIds_length]; exact h
        have hnode : cell.node = y.id := by
          rw [List.getElem?_append_left hpos] at hsl
          have h1 : (n.cur.drop m.pos).topIds = n.cur.topIds.drop m.pos := by
            simp [Forest.topIds, tops_drop]
          rw [hd, topIds_cons] at h1
          have h2 : (n.cur.topIds.drop m.pos)[0]? = some y.id := by rw [← h1]; rfl
          rw [List.getElem?_drop, Nat.add_zero, hsl] at h2
          simpa using h2
        have htr := h.tree
        rw [← hsplit, hd] at htr
        have hseg := (Seg_append.1 htr.seg).2
        have hnd : (Forest.cons y ky r).ids.Nodup := by
          have := htr.nodup
          rw [ids_append] at this
          exact (List.nodup_append.1 (List.nodup_append.1 this).1).2.1
        obtain ⟨⟨l, hl0, hx⟩, hk0, hr⟩ := hseg
        rw [hnode, hx]
        cases r with
        | nil => simp [mkLinks, tops]
        | cons z kz r' =>
          rw [ids_cons, List.nodup_cons, List.mem_append, List.nodup_append] at hnd
          obtain ⟨h1, h2, h3, h4⟩ := hnd
          have hr' : Seg g (s.b.tree.nodes.set y.id
              { mkLinks y (parOf n.stack) ((n.cur.take m.pos).lastId.or none) (some z.id)
                ky.headId l with parent := some n.count, prev := none })
              (.cons z kz r') (parOf n.stack) (some y.id) none := by
            refine hr.congr fun i hi => ?_
            have : y.id ≠ i := fun he => h1 (Or.inr (he ▸ hi))
            rw [List.getElem?_set_ne this]
          have := restructureSteps_spec n.count _ z kz r' _ _ (s.b.tree.nodes.length + 1) hr' h3 ?_
          · simp only [mkLinks, headId_cons, Option.some_or, List.length_set] at this ⊢
            rw [this]
            simp
          · have h1 := htr.width_le
            have h2 := (tops_sublist (Forest.cons y ky (Forest.cons z kz r'))).length_le
            simp only [ids_append, List.length_append] at h1
            have h3 : (Forest.cons y ky (Forest.cons z kz r')).ids.length =
                (Forest.cons y ky (Forest.cons z kz r')).preorder.length := by simp [Forest.ids]
            simp only [tops, List.length_cons] at h2 ⊢
            omega
    · rw [show ptrNew fl.width s.b.tree.len = none by
        rw [ptrNew_eq, if_neg (by simpa [Tree.len, h.tree.len] using hc)]]
      exact .inl ⟨rfl, .inr (.inl (full_iff.2 hc))⟩
  · rw [if_pos (by rw [c2, h.parent]; simpa using hfr)]
    exact .inl ⟨rfl, .inl hfr⟩

/-- After a successful `close_at` the children of the new node are those it has looked at, and the
first one. -/
theorem Rel.closeAt_children {s s' : Sys α} {n n' : Nest α} (h : Rel false s n)
    (h' : Rel false s' n') (fl : Flavor) {k i : Nat} {d : α} {explicit : Option Span}
    (e : n.closeAt fl k d explicit = some (n', .ok (.id i))) :
    ∃ c cs, s.handles[k]? = some c ∧
      Yields (Children.next s'.b.tree.nodes) (nodeChildren s'.b.tree.nodes i) cs ∧
      s.b.closeAtSteps fl s.cells c = cs.length - 1 := by
  have hlen := h.marks.len
  unfold Nest.closeAt at e
  cases hm : n.marks[k]? with
  | none => rw [hm] at e; simp at e
  | some m =>
    rw [hm] at e
    have hlt : k < s.handles.length := hlen ▸ (List.getElem?_eq_some_iff.1 hm).1
    obtain ⟨c, hk⟩ : ∃ c, s.handles[k]? = some c := ⟨_, List.getElem?_eq_getElem hlt⟩
    simp only at e
    split at e
    · simp at e
    · rename_i hf
      split at e
      · simp at e
      · rename_i hfull
        split at e
        · simp at e
        · rename_i hlive
          have hlive' : m.live = true := by simpa using hlive
          simp only [Option.some.injEq, Prod.mk.injEq, Except.ok.injEq, Out.id.injEq] at e
          obtain ⟨rfl, rfl⟩ := e
          have hnd := h'.tree.nodup
          have hseg := h'.tree.seg
          have hcs := h.closeAtSteps fl hm hk (.inl hlive')
          by_cases hd : n.cur.drop m.pos = .nil
          · have hw : n.wrap m.pos d explicit =
                n.addLeaf d (explicit.getD (Span.point n.cursor)) := by simp [Nest.wrap, hd]
            rw [hw] at hseg
            obtain ⟨⟨l, hl, hx⟩, _, _⟩ := (Seg_append.1 hseg).2
            simp only at hx
            refine ⟨c, [], hk, ?_, ?_⟩
            · simp only [nodeChildren, hx, mkLinks]
              exact .done (s' := ⟨none, _⟩) rfl
            · rcases hcs with ⟨h0, _⟩ | ⟨_, _, _, h0⟩
              · simpa using h0
              · rw [hd] at h0; simp [tops] at h0
          · have hw : (n.wrap m.pos d explicit).cur = n.cur.take m.pos ++ Forest.single
                ⟨n.count, d, explicit.getD (Nest.stretch (n.cur.drop m.pos))⟩
                (n.cur.drop m.pos) := by
              unfold Nest.wrap
              rw [if_neg (by cases e : n.cur.drop m.pos <;> simp_all [Forest.isNil])]
            rw [hw] at hseg hnd
            obtain ⟨⟨l, hl, hx⟩, hkids, _⟩ := (Seg_append.1 hseg).2
            simp only at hx hkids
            refine ⟨c, (n.cur.drop m.pos).topIds, hk, ?_, ?_⟩
            · simp only [nodeChildren, hx, mkLinks]
              refine children_forward _ hkids ?_ hl.2.1
              rw [ids_append] at hnd
              have := (List.nodup_append.1 (List.nodup_append.1 hnd).1).2.1
              simp only [Forest.single, ids_cons, List.nodup_cons, List.nodup_append] at this
              exact this.2.1
            · rw [topIds_length]
              rcases hcs with ⟨h0, h1 | h1 | h1⟩ | ⟨_, _, _, h0⟩
              · exact absurd h1 (by simpa using hf)
              · exact absurd h1 hfull
              · exact absurd h1 hd
              · omega

/-- What a `close_at` may still have to look at: the nodes of the current level, and of the levels
of the open nodes. -/
def Nest.pot (n : Nest α) : Nat :=
  n.cur.tops.length + (n.stack.map fun p => p.2.tops.length + 1).sum

theorem pot_grow (sp : Span) (st : List (Lab α × Forest (Lab α))) :
    (Nest.growParent sp st).map (fun p => p.2.tops.length + 1) =
      st.map (fun p => p.2.tops.length + 1) := by
  cases st <;> rfl

theorem pot_end (i : Nat) (st : List (Lab α × Forest (Lab α))) :
    (Nest.endParent i st).map (fun p => p.2.tops.length + 1) =
      st.map (fun p => p.2.tops.length + 1) := by
  cases st <;> rfl

theorem pot_addLeaf (n : Nest α) (d : α) (sp : Span) : (n.addLeaf d sp).pot = n.pot + 1 := by
  simp only [Nest.pot, Nest.addLeaf, pot_end, tops_append, List.length_append]
  simp [tops]; omega

theorem pot_addOpen (n : Nest α) (d : α) (sp : Span) : (n.addOpen d sp).pot = n.pot + 1 := by
  simp only [Nest.pot, Nest.addOpen, List.map_cons, pot_end, List.sum_cons]
  simp [tops]; omega

theorem pot_wrap (n : Nest α) (p : Nat) (d : α) (explicit : Option Span)
    (h : n.cur.drop p ≠ .nil) :
    (n.wrap p d explicit).pot + (n.cur.drop p).tops.length = n.pot + 1 ∧
      (n.wrap p d explicit).count = n.count + 1 := by
  have hn : (n.cur.drop p).isNil = false := by
    cases e : n.cur.drop p with
    | nil => exact absurd e h
    | cons => rfl
  have hlen : n.cur.tops.length = (n.cur.take p).tops.length + (n.cur.drop p).tops.length := by
    have := congrArg (fun F => F.tops.length) (take_append_drop p n.cur)
    simpa using this.symm
  simp only [Nest.wrap, hn, Bool.false_eq_true, if_false, Nest.pot, tops_append,
    List.length_append, and_true]
  rw [hlen]
  simp [tops]; omega

/-- No call raises the potential by more than the nodes it makes, less its steps. -/
theorem Rel.potStep {g : Bool} {s : Sys α} {n n' : Nest α} {o : Except Err Out} (fl : Flavor)
    (h : Rel g s n) (op : Op α) (hst : n.step fl op = some (n', o)) :
    s.steps fl op + n'.pot + n.count ≤ n.pot + n'.count := by
  have hopen : ∀ d sp, (n.openWith fl d sp) = (n', o) → n'.pot + n.count ≤ n.pot + n'.count := by
    intro d sp e
    unfold Nest.openWith at e
    split at e
    · obtain ⟨rfl, rfl⟩ := Prod.mk.inj e; omega
    · obtain ⟨rfl, rfl⟩ := Prod.mk.inj e
      rw [pot_addOpen]; simp only [Nest.addOpen]; omega
  have htoken : ∀ d len, (n.token fl d len) = (n', o) → n'.pot + n.count ≤ n.pot + n'.count := by
    intro d len e
    unfold Nest.token at e
    split at e
    · split at e
      · obtain ⟨rfl, rfl⟩ := Prod.mk.inj e; omega
      · obtain ⟨rfl, rfl⟩ := Prod.mk.inj e
        rw [pot_addLeaf]; simp only [Nest.addLeaf]; omega
    · split at e
      · obtain ⟨rfl, rfl⟩ := Prod.mk.inj e; omega
      · dsimp only at e
        split at e
        · obtain ⟨rfl, rfl⟩ := Prod.mk.inj e
          simp only [Nest.pot]; omega
        · obtain ⟨rfl, rfl⟩ := Prod.mk.inj e
          rw [pot_addLeaf]; simp only [Nest.addLeaf, Nest.pot]; omega
  have hat : ∀ k d explicit, n.closeAt fl k d explicit = some (n', o) →
      (match s.handles[k]? with
        | none => 0
        | some c => s.b.closeAtSteps fl s.cells c) + n'.pot + n.count ≤ n.pot + n'.count := by
    intro k d explicit e
    have hlen := h.marks.len
    unfold Nest.closeAt at e
    cases hm : n.marks[k]? with
    | none =>
      rw [hm] at e
      simp only [Option.some.injEq] at e
      obtain ⟨rfl, rfl⟩ := Prod.mk.inj e
      have : s.handles[k]? = none := by
        rw [List.getElem?_eq_none_iff] at hm ⊢; omega
      rw [this]; simp
    | some m =>
      rw [hm] at e
      have hlt : k < s.handles.length := hlen ▸ (List.getElem?_eq_some_iff.1 hm).1
      obtain ⟨c, hk⟩ : ∃ c, s.handles[k]? = some c := ⟨_, List.getElem?_eq_getElem hlt⟩
      rw [hk]
      simp only at e ⊢
      have hcs := h.closeAtSteps fl hm hk
      split at e
      · rename_i hf
        obtain ⟨rfl, rfl⟩ := Prod.mk.inj (Option.some.inj e)
        rcases hcs (.inr (.inl hf)) with ⟨h0, _⟩ | ⟨h0, _⟩
        · omega
        · exact absurd h0 hf
      · split at e
        · rename_i hf
          obtain ⟨rfl, rfl⟩ := Prod.mk.inj (Option.some.inj e)
          rcases hcs (.inr (.inr hf)) with ⟨h0, _⟩ | ⟨_, h0, _⟩
          · omega
          · rw [hf] at h0; simp at h0
        · split at e
          · simp at e
          · rename_i hlive
            have hlive' : m.live = true := by simpa using hlive
            obtain ⟨rfl, rfl⟩ := Prod.mk.inj (Option.some.inj e)
            by_cases hd : n.cur.drop m.pos = .nil
            · have hw : n.wrap m.pos d explicit =
                  n.addLeaf d (explicit.getD (Span.point n.cursor)) := by simp [Nest.wrap, hd]
              rw [hw, pot_addLeaf]
              rcases hcs (.inl hlive') with ⟨h0, _⟩ | ⟨_, _, _, h0⟩
              · simp only [Nest.addLeaf]; omega
              · rw [hd] at h0; simp [tops] at h0
            · obtain ⟨h1, h2⟩ := pot_wrap n m.pos d explicit hd
              have h3 : 0 < (n.cur.drop m.pos).tops.length := by
                cases e : n.cur.drop m.pos with
                | nil => exact absurd e hd
                | cons => simp [tops]
              rcases hcs (.inl hlive') with ⟨h0, _⟩ | ⟨_, _, _, h0⟩ <;> omega
  cases op with
  | «open» d => simpa [Sys.steps] using hopen _ _ (Option.some.inj hst)
  | openWith d sp => simpa [Sys.steps] using hopen _ _ (Option.some.inj hst)
  | close =>
    simp only [Nest.step, Option.some.injEq] at hst
    cases hs : n.stack with
    | nil =>
      rw [hs] at hst
      obtain ⟨rfl, rfl⟩ := Prod.mk.inj hst
      simp [Sys.steps]
    | cons p st =>
      obtain ⟨x, left⟩ := p
      rw [hs] at hst
      obtain ⟨rfl, rfl⟩ := Prod.mk.inj hst
      simp only [Sys.steps, Nest.pot, pot_grow, hs, tops_append, List.length_append, List.map_cons,
        List.sum_cons]
      simp [tops]
  | token d len => simpa [Sys.steps] using htoken _ _ (Option.some.inj hst)
  | tokenEmpty d => simpa [Sys.steps] using htoken _ _ (Option.some.inj hst)
  | tokenWith d sp =>
    simp only [Nest.step, Option.some.injEq] at hst
    split at hst
    · obtain ⟨rfl, rfl⟩ := Prod.mk.inj hst; simp [Sys.steps]
    · obtain ⟨rfl, rfl⟩ := Prod.mk.inj hst
      have := pot_addLeaf n d sp
      simp only [Nest.pot, Sys.steps, pot_grow] at this ⊢
      simp only [Nest.addLeaf] at this ⊢
      omega
  | checkpoint =>
    simp only [Nest.step, Option.some.injEq] at hst
    split at hst
    · obtain ⟨rfl, rfl⟩ := Prod.mk.inj hst; simp [Sys.steps]
    · obtain ⟨rfl, rfl⟩ := Prod.mk.inj hst; simp [Sys.steps, Nest.pot]
  | closeAt k d => exact hat k d none hst
  | closeAtWith k d sp => exact hat k d (some sp) hst
  | setCursor i =>
    simp only [Nest.step, Option.some.injEq] at hst
    obtain ⟨rfl, rfl⟩ := Prod.mk.inj hst
    simp [Sys.steps, Nest.pot]

theorem Rel.potRun {s : Sys α} {n n' : Nest α} {os : List (Except Err Out)} (fl : Flavor)
    (h : Rel false s n) (ops : List (Op α)) (hst : n.run fl ops = some (n', os)) :
    s.runSteps fl ops + n'.pot + n.count ≤ n.pot + n'.count := by
  induction ops generalizing s n os with
  | nil =>
    simp only [Nest.run, Option.some.injEq] at hst
    obtain ⟨rfl, rfl⟩ := Prod.mk.inj hst
    simp [Sys.runSteps]
  | cons op ops ih =>
    simp only [Nest.run] at hst
    cases h1 : n.step fl op with
    | none => rw [h1] at hst; simp at hst
    | some r =>
      obtain ⟨n1, o1⟩ := r
      rw [h1] at hst
      simp only at hst
      cases h2 : n1.run fl ops with
      | none => rw [h2] at hst; simp at hst
      | some r2 =>
        obtain ⟨n2, os2⟩ := r2
        rw [h2] at hst
        simp only [Option.some.injEq] at hst
        obtain ⟨rfl, rfl⟩ := Prod.mk.inj hst
        obtain ⟨s1, e1, r1⟩ := h.step (g' := false) fl op h1 (by simp)
        have a := h.potStep fl op h1
        have b := ih r1 h2
        simp only [Sys.runSteps, e1]
        omega

end Syntree
