import Verif.Proof.Iterate

/-! `inside()` of a walk that has been started. -/

namespace Syntree

variable {α : Type}

open Forest

/-- What `inside()` shows of a trace. -/
def insideOf : List (Int × Event × Nat) → List Nat
  | [] => []
  | (_, e, n) :: l =>
    (if e = .up then [] else [n]) ++
      (match l with
      | [] => []
      | (d, _) :: _ => if d ≤ 0 then [] else insideOf l)

theorem Rest.headDepth {nodes : Slice α} {w : WalkEvents} {d : Int} {e : Event} {n : Nat}
    {l : List (Int × Event × Nat)} (h : Rest nodes w ((d, e, n) :: l)) : w.depth = d := by
  cases h with
  | item _ _ => rfl

theorem Rest.nil_none {nodes : Slice α} {w : WalkEvents} (h : Rest nodes w []) : w.node = none := by
  cases h with
  | done h => exact h

/-- One call of `Inside::next`. -/
theorem Rest.insideLoop {nodes : Slice α} {w : WalkEvents} {l : List (Int × Event × Nat)}
    (h : Rest nodes w l) (fuel : Nat) (hf : ups l < fuel) :
    (insideOf l = [] ∧ ∃ w', Inside.nextLoop nodes fuel w = (w', .none)) ∨
    (∃ n, insideOf l = [n] ∧ ∃ w', w'.node = none ∧ Inside.nextLoop nodes fuel w = (w', .some n)) ∨
    (∃ n l' w', insideOf l = n :: insideOf l' ∧ ups l' ≤ ups l ∧ l'.length < l.length ∧
      Inside.nextLoop nodes fuel w = (w', .some n) ∧ Rest nodes w' l') := by
  induction h generalizing fuel with
  | @done w hn =>
    left
    cases fuel with
    | zero => simp at hf
    | succ fuel => exact ⟨rfl, w, by simp [Inside.nextLoop, next_of_none hn]⟩
  | @item w w' e n l he hr ih =>
    cases fuel with
    | zero => simp at hf
    | succ fuel =>
      rw [ups_cons] at hf
      have stop : (∀ w2 : WalkEvents, w2.node = none → e = .up →
          ∃ w3, Inside.nextLoop nodes fuel w2 = (w3, .none)) := by
        intro w2 h2 hu
        cases fuel with
        | zero => simp [hu] at hf
        | succ fuel => exact ⟨w2, by simp [Inside.nextLoop, next_of_none h2]⟩
      by_cases hd : w'.depth ≤ 0
      · -- the walk is cut off
        have hins : insideOf ((w.depth, e, n) :: l) = if e = .up then [] else [n] := by
          cases l with
          | nil => simp [insideOf]
          | cons p l =>
            obtain ⟨d, q⟩ := p
            have : w'.depth = d := by obtain ⟨e', n'⟩ := q; exact hr.headDepth
            simp [insideOf, ← this, hd]
        by_cases hu : e = .up
        · left
          obtain ⟨w3, h3⟩ := stop WalkEvents.default rfl hu
          exact ⟨by rw [hins, if_pos hu], w3, by simp [Inside.nextLoop, he, hd, hu, h3]⟩
        · right; left
          exact ⟨n, by rw [hins, if_neg hu], WalkEvents.default, rfl,
            by simp [Inside.nextLoop, he, hd, hu]⟩
      · cases l with
        | nil =>
          have hn := hr.nil_none
          by_cases hu : e = .up
          · left
            obtain ⟨w3, h3⟩ := stop w' hn hu
            refine ⟨by simp [insideOf, hu], w3, ?_⟩
            simp only [Inside.nextLoop, he, hd, if_false, hu, ne_eq, not_true_eq_false]
            exact h3
          · right; left
            exact ⟨n, by simp [insideOf, hu], w', hn, by simp [Inside.nextLoop, he, hd, hu]⟩
        | cons p l =>
          have hp : w'.depth = p.1 := by obtain ⟨d', e', n'⟩ := p; exact hr.headDepth
          have hins : insideOf ((w.depth, e, n) :: p :: l) =
              (if e = .up then [] else [n]) ++ insideOf (p :: l) := by
            obtain ⟨d, q⟩ := p
            simp only at hp
            rw [insideOf]
            simp only [if_neg (show ¬ d ≤ 0 by omega)]
          by_cases hu : e = .up
          · simp only [hu, if_true] at hf
            have hstep : Inside.nextLoop nodes (fuel + 1) w = Inside.nextLoop nodes fuel w' := by
              simp [Inside.nextLoop, he, hd, hu]
            rw [hstep, hins, if_pos hu, List.nil_append]
            rcases ih fuel (by omega) with h1 | h1 | ⟨m, l', w'', h1, h2, h3, h4, h5⟩
            · exact .inl h1
            · exact .inr (.inl h1)
            · exact .inr (.inr ⟨m, l', w'', h1, by rw [ups_cons]; omega,
                by simp only [List.length_cons] at h3 ⊢; omega, h4, h5⟩)
          · right; right
            exact ⟨n, p :: l, w', by rw [hins, if_neg hu]; rfl, by rw [ups_cons (w.depth, e, n)]; omega, by simp,
              by simp [Inside.nextLoop, he, hd, hu], hr⟩

theorem Rest.insideYields {nodes : Slice α} (fuel : Nat) (l : List (Int × Event × Nat)) :
    ∀ {w : WalkEvents}, Rest nodes w l → ups l < fuel →
    Yields (Inside.nextLoop nodes fuel) w (insideOf l) := by
  induction hn : l.length using Nat.strongRecOn generalizing l with
  | _ n ih =>
    intro w h hf
    rcases h.insideLoop fuel hf with ⟨h1, w', h2⟩ | ⟨m, h1, w', h2, h3⟩ | ⟨m, l', w'', h1, h2, h3, h4, h5⟩
    · rw [h1]; exact .done h2
    · rw [h1]
      refine .item h3 (.done (s' := w') ?_)
      cases fuel with
      | zero => simp at hf
      | succ fuel => simp [Inside.nextLoop, next_of_none h2]
    · rw [h1]; exact .item h4 (ih _ (by omega) l' rfl h5 (by omega))

/-- One call of `Walk::next` inside of a part of the trace that still has something to show. -/
theorem Rest.walkStep {nodes : Slice α} (T : List (Int × Event × Nat)) :
    ∀ (S : List (Int × Event × Nat)) (fuel : Nat) {w : WalkEvents} {d : Int} {n : Nat}
      {V : List (Int × Nat)},
    Rest nodes w (S ++ T) → visited S = (d, n) :: V → ups S < fuel →
    ∃ P S' w', S = P ++ S' ∧ Walk.nextLoop nodes fuel w = (w', .some n) ∧
      Rest nodes w' (S' ++ T) ∧ visited S' = V := by
  intro S
  induction S with
  | nil => intro fuel w d n V _ hv _; simp [visited] at hv
  | cons p S ih =>
    intro fuel w d n V h hv hf
    obtain ⟨d', e, m⟩ := p
    rw [List.cons_append] at h
    cases h with
    | @item _ w' _ _ _ he hr =>
      cases fuel with
      | zero => simp at hf
      | succ fuel =>
        rw [ups_cons] at hf
        by_cases hu : e = .up
        · subst hu
          simp only [if_true] at hf
          rw [visited_up] at hv
          obtain ⟨P, S', w'', h1, h2, h3, h4⟩ := ih fuel hr hv (by omega)
          exact ⟨_ :: P, S', w'', by rw [h1]; rfl, by simp [Walk.nextLoop, he, h2], h3, h4⟩
        · rw [visited_other _ hu, List.cons.injEq, Prod.mk.injEq] at hv
          obtain ⟨⟨_, rfl⟩, hv⟩ := hv
          exact ⟨[_], S, w', rfl, by simp [Walk.nextLoop, he, hu], hr, hv⟩

/-- `j` calls. -/
theorem Rest.walkSteps {nodes : Slice α} (T : List (Int × Event × Nat)) :
    ∀ (j : Nat) (S : List (Int × Event × Nat)) {w : WalkEvents},
    Rest nodes w (S ++ T) → ups S ≤ nodes.length → j ≤ (visited S).length →
    ∃ P S', S = P ++ S' ∧
      Rest nodes (Nat.repeat (fun s => (Walk.next nodes s).1) j w) (S' ++ T) ∧
      visited S' = (visited S).drop j := by
  intro j
  induction j with
  | zero => intro S w h _ _; exact ⟨[], S, rfl, h, rfl⟩
  | succ j ih =>
    intro S w h hu hj
    obtain ⟨P, S', h1, h2, h3⟩ := ih S h hu (by omega)
    have hlen : 0 < (visited S').length := by rw [h3, List.length_drop]; omega
    obtain ⟨⟨d, n⟩, V, hV⟩ : ∃ q V, visited S' = q :: V := by
      cases hv : visited S' with
      | nil => rw [hv] at hlen; simp at hlen
      | cons q V => exact ⟨q, V, rfl⟩
    have hu' : ups S' ≤ ups S := by rw [h1, ups_append]; omega
    obtain ⟨P2, S2, w2, e1, e2, e3, e4⟩ := h2.walkStep T S' (nodes.length + 1) hV (by omega)
    refine ⟨P ++ P2, S2, by rw [h1, e1]; simp, ?_, ?_⟩
    · have : (Nat.repeat (fun s => (Walk.next nodes s).1) (j + 1) w) = w2 := by
        show (Walk.next nodes _).1 = w2
        unfold Walk.next at e2 ⊢
        rw [e2]
      rw [this]; exact e3
    · rw [e4]
      have : (visited S).drop (j + 1) = ((visited S).drop j).tail := by simp
      rw [this, ← h3, hV]; rfl

/-- Depths inside of a nested list. -/
theorem devents_depth (e : Event) (d : Int) (F : Forest (Lab α)) :
    ∀ p ∈ devents e d F, d ≤ p.1 := by
  induction F generalizing e d with
  | nil => simp [devents]
  | cons x k r ihk ihr =>
    intro p hp
    by_cases hk : k = .nil
    · subst hk
      rw [devents_leaf] at hp
      rcases List.mem_cons.1 hp with rfl | hp
      · simp
      · exact ihr _ _ p hp
    · rw [devents_inner _ _ _ hk] at hp
      rcases List.mem_cons.1 hp with rfl | hp
      · simp
      · rcases List.mem_append.1 hp with hp | hp
        · have := ihk _ _ p hp; omega
        · rcases List.mem_cons.1 hp with rfl | hp
          · simp
          · exact ihr _ _ p hp

theorem insideOf_segment {x : Nat} {post : List (Int × Event × Nat)}
    (hp : ∀ q, post.head? = some q → q.1 ≤ 0) :
    ∀ S : List (Int × Event × Nat), (∀ p ∈ S, 1 ≤ p.1) →
    insideOf (S ++ (0, .up, x) :: post) = (visited S).map (·.2) := by
  intro S
  induction S with
  | nil =>
    intro _
    rw [List.nil_append]
    cases post with
    | nil => rfl
    | cons q post =>
      have := hp q rfl
      obtain ⟨d, e, n⟩ := q
      simp only at this
      simp [insideOf, visited, this]
  | cons p S ih =>
    intro h
    have ih' := ih (fun q hq => h q (by simp [hq]))
    obtain ⟨d, e, n⟩ := p
    cases S with
    | nil =>
      by_cases hu : e = .up
      · simp [insideOf, hu, visited]
      · simp [insideOf, hu, visited]
    | cons q S =>
      have hq : 1 ≤ q.1 := h q (by simp)
      obtain ⟨d', e', n'⟩ := q
      simp only at hq
      have e2 : insideOf ((d, e, n) :: (d', e', n') :: S ++ (0, .up, x) :: post) =
          (if e = .up then [] else [n]) ++
            insideOf ((d', e', n') :: S ++ (0, .up, x) :: post) := by
        rw [List.cons_append, List.cons_append, insideOf]
        simp only [if_neg (show ¬ d' ≤ 0 by omega)]
      rw [e2, ih']
      by_cases hu : e = .up
      · subst hu; rw [visited_up]; simp
      · rw [visited_other _ hu]; simp [hu]

theorem exitState_depth (par nxt : Option Nat) : (exitState par nxt 0).depth ≤ 0 := by
  cases nxt <;> simp [exitState]

/-- `inside()` after `j` calls of `next()` on the walk of a node with children. -/
theorem Represents.inside_midway {g : Bool} {t : Tree α} {F : Forest (Lab α)}
    (h : Represents g t F) {anc : List (Lab α)} {left kids right : Forest (Lab α)} {x : Lab α}
    (hl : Loc F anc left x kids right) (hk : kids ≠ .nil) {j : Nat} (hj : j < kids.size + 1) :
    Yields (Inside.next t.nodes)
      (Nat.repeat (fun s => (Walk.next t.nodes s).1) (j + 1) (nodeWalk x.id)) (kids.ids.drop j) := by
  obtain ⟨pre, post, e1, e2⟩ := rest_loc h.root hl (- (anc.length : Int))
  have h0 : (- (anc.length : Int)) + anc.length = 0 := by omega
  rw [h0] at e1 e2
  obtain ⟨l, hl', hx⟩ := hl.links h.root
  have hu := h.ups_le (- (anc.length : Int))
  rw [e1, ups_append, ups_append, devents_inner _ _ _ hk, ups_cons, ups_append, ups_cons,
    if_pos rfl] at hu
  simp only [single, devents, ups, List.filter_nil, List.length_nil] at hu
  have hs : Seg g t.nodes (.single x kids) (anc.head?.map (·.id)) left.lastId right.headId :=
    ⟨⟨l, hl', by simpa using hx⟩, hl.kids h.root, trivial⟩
  have hrest := (trace_seg _ 0 hs (e := .next) (by simp) rfl).rest e2
  rw [show Forest.single x kids = .cons x kids .nil from rfl, devents_inner _ _ _ hk] at hrest
  have hrest' : Rest t.nodes (nodeWalk x.id)
      (((0, Event.next, x.id) :: devents .down (0 + 1) kids) ++ (0, .up, x.id) :: post) := by
    simpa [devents, nodeWalk, WalkEvents.new] using hrest
  have hvis : visited ((0, Event.next, x.id) :: devents .down (0 + 1) kids) =
      (0, x.id) :: visited (devents .down (0 + 1) kids) := visited_other _ (by simp) _ _
  have hids : (visited (devents .down (0 + 1) kids)).map (·.2) = kids.ids :=
    visited_ids .down (by simp) _ kids
  have hlen : (visited (devents .down (0 + 1) kids)).length = kids.size := by
    have := congrArg List.length hids
    rw [List.length_map] at this
    rw [this, ids, List.length_map, preorder_length]
  have hupsS : ups ((0, Event.next, x.id) :: devents .down (0 + 1) kids) ≤ t.nodes.length := by
    rw [ups_cons, if_neg (by simp)]
    unfold ups
    omega
  obtain ⟨P, S', h1, h2, h3⟩ := hrest'.walkSteps _ (j + 1) _ hupsS (by rw [hvis, List.length_cons, hlen]; omega)
  have hS' : ∀ p ∈ S', 1 ≤ p.1 := by
    intro p hp
    have hsuf : ∃ P', devents .down (0 + 1) kids = P' ++ S' := by
      cases P with
      | nil =>
        rw [List.nil_append] at h1
        rw [hvis, ← h1, hvis] at h3
        have := congrArg List.length h3
        simp at this
        omega
      | cons q P =>
        rw [List.cons_append, List.cons.injEq] at h1
        exact ⟨P, h1.2⟩
    obtain ⟨P', hP'⟩ := hsuf
    have := devents_depth .down (0 + 1) kids p (by rw [hP']; simp [hp])
    omega
  have hpost : ∀ q, post.head? = some q → q.1 ≤ 0 := by
    intro q hq
    cases post with
    | nil => simp at hq
    | cons p post =>
      simp only [List.head?_cons, Option.some.injEq] at hq
      subst hq
      obtain ⟨d, e, n⟩ := p
      rw [← e2.headDepth]
      exact exitState_depth _ _
  have hups2 : ups (S' ++ (0, Event.up, x.id) :: post) < t.nodes.length + 1 := by
    have : ups S' ≤ ups ((0, Event.next, x.id) :: devents .down (0 + 1) kids) := by
      rw [h1, ups_append]; omega
    rw [ups_cons, if_neg (by simp)] at this
    rw [ups_append, ups_cons, if_pos rfl]
    unfold ups at this ⊢
    omega
  have := h2.insideYields (t.nodes.length + 1) _ hups2
  rw [insideOf_segment hpost S' hS', h3, hvis, List.drop_succ_cons, List.map_drop, hids] at this
  exact this

/-- The state after one call on the walk of a childless node. -/
theorem Represents.walk_leaf {g : Bool} {t : Tree α} {F : Forest (Lab α)}
    (h : Represents g t F) {anc : List (Lab α)} {left right : Forest (Lab α)} {x : Lab α}
    (hl : Loc F anc left x .nil right) :
    Walk.next t.nodes (nodeWalk x.id) =
      (exitState (anc.head?.map (·.id)) right.headId 0, .some x.id) := by
  obtain ⟨l, hl', hx⟩ := hl.links h.root
  have hs := step_leaf hx .next 0
  unfold Walk.next nodeWalk WalkEvents.new
  simp [Walk.nextLoop, hs]

theorem Represents.inside_after_leaf {g : Bool} {t : Tree α} {F : Forest (Lab α)}
    (h : Represents g t F) {anc : List (Lab α)} {left : Forest (Lab α)} {x : Lab α}
    (hl : Loc F anc left x .nil .nil) :
    Yields (Inside.next t.nodes) (Walk.next t.nodes (nodeWalk x.id)).1 [] := by
  rw [h.walk_leaf hl]
  cases anc with
  | nil => exact .done (s' := ⟨none, -1⟩) rfl
  | cons p anc =>
    obtain ⟨lp, rp, hp⟩ := hl.parent
    obtain ⟨l, hl', hx⟩ := hp.links h.root
    have hs := step_up hx (-1)
    have hd : (exitState (anc.head?.map (·.id)) rp.headId (-1)).depth ≤ 0 := by
      cases rp.headId <;> simp [exitState]
    have hlen : 0 < t.nodes.length := by
      have := (List.getElem?_eq_some_iff.1 hx).1
      omega
    obtain ⟨k, hk⟩ : ∃ k, t.nodes.length = k + 1 := ⟨t.nodes.length - 1, by omega⟩
    refine .done (s' := WalkEvents.default) ?_
    have e : exitState (some p.id) none 0 = ⟨some (p.id, .up), -1⟩ := rfl
    simp only [List.head?_cons, Option.map_some, headId_nil, e, Inside.next, Inside.nextLoop, hs, hd,
      if_true, ne_eq, not_true_eq_false, if_false, hk]
    rfl

end Syntree
