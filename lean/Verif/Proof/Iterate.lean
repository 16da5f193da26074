import Verif.Proof.Read

/-! Iterators over a represented tree. -/

namespace Syntree

variable {α : Type}

open Forest

/-! ## Generic iterator facts -/

theorem Yields.det {σ β : Type} {next : NextFn σ β} {s : σ} {l l' : List β}
    (h : Yields next s l) (h' : Yields next s l') : l = l' := by
  induction h generalizing l' with
  | done e =>
    cases h' with
    | done _ => rfl
    | item e' _ => rw [e] at e'; simp at e'
  | item e _ ih =>
    cases h' with
    | done e' => rw [e] at e'; simp at e'
    | item e' h' =>
      rw [e] at e'
      simp only [Prod.mk.injEq, Got.some.injEq] at e'
      obtain ⟨rfl, rfl⟩ := e'
      rw [ih h']

/-- `findLoop` over an iterator that yields `l`. -/
theorem findLoop_spec {σ β : Type} {next : NextFn σ β} (p : β → Bool) {s : σ} {l : List β}
    (h : Yields next s l) (fuel : Nat) (hf : l.length < fuel) :
    (l.filter p = [] ∧ ∃ s', findLoop next p fuel s = (s', .none)) ∨
    (∃ pre x post s', l = pre ++ x :: post ∧ (∀ y ∈ pre, p y = false) ∧ p x = true ∧
      findLoop next p fuel s = (s', .some x) ∧ Yields next s' post) := by
  induction h generalizing fuel with
  | @done s s' e =>
    left
    cases fuel with
    | zero => simp at hf
    | succ fuel => exact ⟨rfl, s', by simp [findLoop, e]⟩
  | @item s s' x l e hy ih =>
    cases fuel with
    | zero => simp at hf
    | succ fuel =>
      simp only [List.length_cons, Nat.add_lt_add_iff_right] at hf
      cases hp : p x with
      | true =>
        right
        exact ⟨[], x, l, s', rfl, by simp, hp, by simp [findLoop, e, hp], hy⟩
      | false =>
        rcases ih fuel hf with ⟨h1, s'', h2⟩ | ⟨pre, y, post, s'', h1, h2, h3, h4, h5⟩
        · left
          exact ⟨by simp [hp, h1], s'', by simp [findLoop, e, hp, h2]⟩
        · right
          refine ⟨x :: pre, y, post, s'', by rw [h1]; rfl, ?_, h3, by simp [findLoop, e, hp, h4], h5⟩
          intro z hz
          rcases List.mem_cons.1 hz with rfl | hz
          · exact hp
          · exact h2 z hz

/-- Repeating `find` filters. -/
theorem Yields.filter {σ β : Type} {next : NextFn σ β} (p : β → Bool) (fuel : Nat) (l : List β) :
    ∀ {s : σ}, Yields next s l → l.length < fuel →
    Yields (findLoop next p fuel) s (l.filter p) := by
  induction hn : l.length using Nat.strongRecOn generalizing l with
  | _ n ih =>
    intro s h hf
    rcases findLoop_spec p h fuel (hn ▸ hf) with ⟨h1, s', h2⟩ | ⟨pre, x, post, s', h1, h2, h3, h4, h5⟩
    · rw [h1]; exact .done h2
    · have : l.filter p = x :: post.filter p := by
        have hpre : pre.filter p = [] := by
          rw [List.filter_eq_nil_iff]
          intro a ha; rw [h2 a ha]; simp
        rw [h1, List.filter_append, hpre, List.nil_append, List.filter_cons_of_pos h3]
      rw [this]
      refine .item h4 (ih _ ?_ post rfl h5 ?_)
      · rw [← hn, h1]; simp; omega
      · have : l.length = pre.length + (post.length + 1) := by rw [h1]; simp
        omega

/-! ## Walks -/

/-- Number of `Up` items. -/
def ups (l : List (Int × Event × Nat)) : Nat := (l.filter (fun p => p.2.1 == .up)).length

theorem ups_cons (a : Int × Event × Nat) (l : List (Int × Event × Nat)) :
    ups (a :: l) = (if a.2.1 = .up then 1 else 0) + ups l := by
  unfold ups
  by_cases h : a.2.1 = .up
  · simp [h]; omega
  · simp [h]

theorem ups_append (l l' : List (Int × Event × Nat)) : ups (l ++ l') = ups l + ups l' := by
  simp [ups]

/-- The items that a walk shows. -/
def visited (l : List (Int × Event × Nat)) : List (Int × Nat) :=
  (l.filter (fun p => p.2.1 != .up)).map (fun p => (p.1, p.2.2))

theorem visited_append (l l' : List (Int × Event × Nat)) :
    visited (l ++ l') = visited l ++ visited l' := by simp [visited]

theorem visited_up (d : Int) (n : Nat) (l : List (Int × Event × Nat)) :
    visited ((d, .up, n) :: l) = visited l := by simp [visited]

theorem visited_other (d : Int) {e : Event} (he : e ≠ .up) (n : Nat)
    (l : List (Int × Event × Nat)) : visited ((d, e, n) :: l) = (d, n) :: visited l := by
  simp [visited, he]

theorem next_of_none {nodes : Slice α} {w : WalkEvents} (h : w.node = none) :
    WalkEvents.next nodes w = (w, .none) := by
  simp [WalkEvents.next, h]

theorem Rest.events {nodes : Slice α} {w : WalkEvents} {l : List (Int × Event × Nat)}
    (h : Rest nodes w l) : Yields (WalkEvents.next nodes) w (l.map (·.2)) := by
  induction h with
  | done hn => exact .done (next_of_none hn)
  | item e _ ih => exact .item e ih

/-- One call of `WithDepths::next`. -/
theorem Rest.depthLoop {nodes : Slice α} {w : WalkEvents} {l : List (Int × Event × Nat)}
    (h : Rest nodes w l) (fuel : Nat) (hf : ups l < fuel) :
    (visited l = [] ∧ ∃ w', w'.node = none ∧ WithDepths.nextLoop nodes fuel w = (w', .none)) ∨
    (∃ d n l' w', visited l = (d, n) :: visited l' ∧ ups l' ≤ ups l ∧
      l'.length < l.length ∧
      WithDepths.nextLoop nodes fuel w = (w', .some (d, n)) ∧ Rest nodes w' l') := by
  induction h generalizing fuel with
  | @done w hn =>
    left
    cases fuel with
    | zero => simp at hf
    | succ fuel => exact ⟨rfl, w, hn, by simp [WithDepths.nextLoop, next_of_none hn]⟩
  | @item w w' e n l he hr ih =>
    cases fuel with
    | zero => simp at hf
    | succ fuel =>
      rw [ups_cons] at hf
      by_cases hu : e = .up
      · subst hu
        simp only [if_true] at hf
        rcases ih fuel (by omega) with ⟨h1, w'', h2, h3⟩ | ⟨d, m, l', w'', h1, h2, h3, h4, h5⟩
        · left
          exact ⟨by rw [visited_up, h1], w'', h2, by simp [WithDepths.nextLoop, he, h3]⟩
        · right
          refine ⟨d, m, l', w'', by rw [visited_up, h1], ?_, ?_, by simp [WithDepths.nextLoop, he, h4], h5⟩
          · rw [ups_cons]; omega
          · simp; omega
      · right
        refine ⟨w.depth, n, l, w', visited_other _ hu _ _, ?_, by simp, ?_, hr⟩
        · rw [ups_cons]; omega
        · simp [WithDepths.nextLoop, he, hu]

theorem Rest.withDepths {nodes : Slice α} (fuel : Nat) (l : List (Int × Event × Nat)) :
    ∀ {w : WalkEvents}, Rest nodes w l → ups l < fuel →
    Yields (WithDepths.nextLoop nodes fuel) w (visited l) := by
  induction hn : l.length using Nat.strongRecOn generalizing l with
  | _ n ih =>
    intro w h hf
    rcases h.depthLoop fuel hf with ⟨h1, w', _, h2⟩ | ⟨d, m, l', w', h1, h2, h3, h4, h5⟩
    · rw [h1]; exact .done h2
    · rw [h1]; exact .item h4 (ih _ (by omega) l' rfl h5 (by omega))

theorem walk_of_depths (nodes : Slice α) (fuel : Nat) (w : WalkEvents) :
    Walk.nextLoop nodes fuel w =
      ((WithDepths.nextLoop nodes fuel w).1, (WithDepths.nextLoop nodes fuel w).2.map (·.2)) := by
  induction fuel generalizing w with
  | zero => rfl
  | succ fuel ih =>
    simp only [Walk.nextLoop, WithDepths.nextLoop]
    rcases h : WalkEvents.next nodes w with ⟨w', _ | ⟨e, n⟩ | _⟩
    · rfl
    · by_cases he : e = .up
      · simp [he, ih]
      · simp [he, Got.map]
    · rfl

theorem Yields.mapped {σ β γ : Type} {next : NextFn σ β} {next' : NextFn σ γ} {f : β → γ}
    (e : ∀ s, next' s = ((next s).1, (next s).2.map f)) {s : σ} {l : List β}
    (h : Yields next s l) : Yields next' s (l.map f) := by
  induction h with
  | done h => exact .done (by rw [e, h]; rfl)
  | item h _ ih => exact .item (by rw [e, h]; rfl) ih

theorem Rest.walk {nodes : Slice α} {w : WalkEvents} {l : List (Int × Event × Nat)}
    (h : Rest nodes w l) (hf : ups l ≤ nodes.length) :
    Yields (Walk.next nodes) w ((visited l).map (·.2)) :=
  (h.withDepths (nodes.length + 1) l (by omega)).mapped
    (next' := Walk.next nodes) (fun w => walk_of_depths nodes _ w)

/-! ### The trace of a nested list -/

theorem devents_events (e : Event) (d : Int) (F : Forest (Lab α)) :
    (devents e d F).map (·.2) = (F.events e).map (fun p => (p.1, p.2.id)) := by
  induction F generalizing e d with
  | nil => rfl
  | cons x k r ihk ihr =>
    cases k with
    | nil => simp [devents, events, ihr]
    | cons y k' r' => simp only [devents, events, List.map_cons, List.map_append, ihr, ihk]

theorem visited_devents (e : Event) (he : e ≠ .up) (d : Nat) (D : Int) (F : Forest (Lab α)) :
    visited (devents e (D + d) F) = (F.depths d).map (fun p => (D + p.1, p.2.id)) := by
  induction F generalizing e d with
  | nil => rfl
  | cons x k r ihk ihr =>
    have h1 : D + (d : Int) + 1 = D + ((d + 1 : Nat) : Int) := by simp; omega
    by_cases hk : k = .nil
    · subst hk
      rw [devents_leaf, visited_other _ he, ihr .next (by simp) d]
      simp [depths]
    · rw [devents_inner _ _ _ hk, visited_other _ he, visited_append, visited_up, h1,
        ihk .down (by simp), ihr .next (by simp)]
      simp [depths]

theorem depths_snd {β : Type} (d : Nat) (F : Forest β) : (F.depths d).map (·.2) = F.preorder := by
  induction F generalizing d with
  | nil => rfl
  | cons x k r ihk ihr => simp [depths, ihk, ihr]

theorem visited_ids (e : Event) (he : e ≠ .up) (D : Int) (F : Forest (Lab α)) :
    (visited (devents e D F)).map (·.2) = F.ids := by
  have := visited_devents e he 0 D F
  simp only [Int.natCast_zero, Int.add_zero] at this
  rw [this, List.map_map, ids, ← depths_snd 0 F, List.map_map]
  rfl

theorem ups_devents (e : Event) (he : e ≠ .up) (d : Int) (F : Forest (Lab α)) :
    ups (devents e d F) + F.leaves.length = F.size := by
  induction F generalizing e d with
  | nil => rfl
  | cons x k r ihk ihr =>
    have hr := ihr .next (by simp) d
    by_cases hk : k = .nil
    · subst hk
      rw [devents_leaf, ups_cons, if_neg he]
      simp [leaves, size]; omega
    · have hkk := ihk .down (by simp) (d + 1)
      rw [devents_inner _ _ _ hk, ups_cons, if_neg he, ups_append, ups_cons, if_pos rfl]
      have : (Forest.cons x k r).leaves = k.leaves ++ r.leaves := by
        cases k with
        | nil => exact absurd rfl hk
        | cons => rfl
      rw [this]
      simp [size]; omega

theorem Forest.Loc.leaf_pos {β : Type} {F : Forest β} {anc : List β} {left right : Forest β} {x : β}
    (h : Loc F anc left x .nil right) : 0 < F.leaves.length := by
  have key : ∀ G : Forest β, G ≠ .nil → 0 < G.leaves.length := by
    intro G
    induction G with
    | nil => intro h; exact absurd rfl h
    | cons y k r ihk _ =>
      intro _
      cases k with
      | nil => simp [leaves]
      | cons z k' r' =>
        have := ihk (by simp)
        simp only [leaves, List.length_append]; omega
  refine key F ?_
  rintro rfl
  have := h.mem
  simp at this

/-! ### Whole tree -/

theorem Represents.rest {g : Bool} {t : Tree α} {F : Forest (Lab α)} (h : Represents g t F) :
    Rest t.nodes t.walk (devents .next 0 F) := by
  unfold Tree.walk WalkEvents.new
  rw [h.first]
  cases hi : F.headId with
  | none => rw [headId_eq_none.1 hi]; exact .done rfl
  | some i =>
    have := (trace_seg F 0 h.root (e := .next) (by simp) hi).rest (Rest.exit_root 0)
    simpa using this

theorem Represents.ups_le {g : Bool} {t : Tree α} {F : Forest (Lab α)} (h : Represents g t F)
    (d : Int) : ups (devents .next d F) ≤ t.nodes.length := by
  have := ups_devents .next (by simp) d F
  have := h.size
  omega

theorem Represents.walk_events {g : Bool} {t : Tree α} {F : Forest (Lab α)}
    (h : Represents g t F) :
    Yields (WalkEvents.next t.nodes) t.walk ((F.events .next).map fun p => (p.1, p.2.id)) := by
  have := h.rest.events
  rwa [devents_events] at this

theorem Represents.walk {g : Bool} {t : Tree α} {F : Forest (Lab α)} (h : Represents g t F) :
    Yields (Walk.next t.nodes) t.walk F.ids := by
  have := h.rest.walk (h.ups_le 0)
  rwa [visited_ids _ (by simp)] at this

theorem Represents.with_depths {g : Bool} {t : Tree α} {F : Forest (Lab α)}
    (h : Represents g t F) :
    Yields (WithDepths.next t.nodes) t.walk
      ((F.depths 0).map fun p => ((p.1 : Int), p.2.id)) := by
  have := h.rest.withDepths (t.nodes.length + 1) _ (by have := h.ups_le 0; omega)
  have e := visited_devents (α := α) .next (by simp) 0 0 F
  simp only [Int.natCast_zero, Int.add_zero, Int.zero_add] at e
  rw [e] at this
  exact this

/-! ### From a node -/

theorem Represents.node_rest {g : Bool} {t : Tree α} {F : Forest (Lab α)} (h : Represents g t F)
    {anc : List (Lab α)} {left kids right : Forest (Lab α)} {x : Lab α}
    (hl : Loc F anc left x kids right) :
    ∃ pre post, devents .next (- (anc.length : Int)) F =
        pre ++ (devents (enter anc left) 0 (.single x kids) ++ post) ∧
      Rest t.nodes (nodeWalk x.id) (devents .next 0 (.single x kids) ++ post) ∧
      Rest t.nodes (nodeWalkFrom x.id) ((0, .up, x.id) :: post) := by
  obtain ⟨pre, post, e1, e2⟩ := rest_loc h.root hl (- (anc.length : Int))
  have h0 : (- (anc.length : Int)) + anc.length = 0 := by omega
  rw [h0] at e1 e2
  obtain ⟨l, hl', hx⟩ := hl.links h.root
  refine ⟨pre, post, e1, ?_, ?_⟩
  · have hs : Seg g t.nodes (.single x kids) (anc.head?.map (·.id)) left.lastId right.headId :=
      ⟨⟨l, hl', by simpa using hx⟩, hl.kids h.root, trivial⟩
    exact (trace_seg _ 0 hs (e := .next) (by simp) rfl).rest e2
  · exact .item (w := nodeWalkFrom x.id) (step_up hx 0) e2

theorem Represents.node_walk {g : Bool} {t : Tree α} {F : Forest (Lab α)} (h : Represents g t F)
    {anc : List (Lab α)} {left kids right : Forest (Lab α)} {x : Lab α}
    (hl : Loc F anc left x kids right) :
    ∃ pre post, (F.depths 0).map (fun p => ((p.1 : Int) - anc.length, p.2.id)) =
        pre ++ (((kids.depths 1).map fun p => ((p.1 : Int), p.2.id)).cons (0, x.id) ++ post) ∧
      Yields (WithDepths.next t.nodes) (nodeWalk x.id)
        (((kids.depths 1).map fun p => ((p.1 : Int), p.2.id)).cons (0, x.id) ++ post) ∧
      Yields (Walk.next t.nodes) (nodeWalk x.id) (x.id :: kids.ids ++ post.map (·.2)) ∧
      Yields (WithDepths.next t.nodes) (nodeWalkFrom x.id) post ∧
      Yields (Walk.next t.nodes) (nodeWalkFrom x.id) (post.map (·.2)) := by
  obtain ⟨pre, post, e1, e2, e3⟩ := h.node_rest hl
  have hu := h.ups_le (- (anc.length : Int))
  have hu2 := ups_devents .next (by simp) (- (anc.length : Int)) F
  have hsz := h.size
  rw [e1, ups_append, ups_append] at hu hu2
  have hue : ups (devents (enter anc left) 0 (single x kids)) =
      ups (devents .next 0 (single x kids)) := by
    have a := ups_devents (enter anc left) (enter_ne _ _) 0 (single x kids)
    have b := ups_devents .next (by simp) 0 (single x kids)
    omega
  have hv : visited (devents .next 0 (single x kids)) =
      ((kids.depths 1).map fun p => ((p.1 : Int), p.2.id)).cons (0, x.id) := by
    have e := visited_devents (α := α) .next (by simp) 0 0 (single x kids)
    simp only [Int.natCast_zero, Int.add_zero, Int.zero_add] at e
    rw [e]; simp [depths]
  have hve : visited (devents (enter anc left) 0 (single x kids)) =
      ((kids.depths 1).map fun p => ((p.1 : Int), p.2.id)).cons (0, x.id) := by
    have e := visited_devents (α := α) (enter anc left) (enter_ne _ _) 0 0 (single x kids)
    simp only [Int.natCast_zero, Int.add_zero, Int.zero_add] at e
    rw [e]; simp [depths]
  have hfrom : ups ((0, Event.up, x.id) :: post) ≤ t.nodes.length := by
    rw [ups_cons, if_pos rfl]
    by_cases hk : kids = .nil
    · subst hk
      have := hl.leaf_pos
      omega
    · have : 1 ≤ ups (devents (enter anc left) 0 (single x kids)) := by
        rw [devents_inner _ _ _ hk, ups_cons, ups_append, ups_cons, if_pos rfl]
        omega
      omega
  refine ⟨visited pre, visited post, ?_, ?_, ?_, ?_, ?_⟩
  · have e := visited_devents (α := α) .next (by simp) 0 (- (anc.length : Int)) F
    simp only [Int.natCast_zero, Int.add_zero] at e
    rw [e1, visited_append, visited_append, hve] at e
    rw [e]
    apply List.map_congr_left
    intro p _
    simp; omega
  · rw [← hv, ← visited_append]
    refine e2.withDepths _ _ ?_
    rw [ups_append]; omega
  · have := e2.walk (by rw [ups_append]; omega)
    rw [visited_append, hv] at this
    simp only [List.map_append, List.map_cons, List.map_map] at this
    have hk : (kids.depths 1).map ((fun p : Int × Nat => p.2) ∘ fun p => ((p.1 : Int), p.2.id)) =
        kids.ids := by
      rw [ids, ← depths_snd 1 kids, List.map_map]; rfl
    rw [hk] at this
    exact this
  · have := e3.withDepths (t.nodes.length + 1) _ (by omega)
    rwa [visited_up] at this
  · have := e3.walk hfrom
    rwa [visited_up] at this

/-! ### `Inside` -/

/-- Before the end of the subtree. -/
theorem Trace.inside {nodes : Slice α} {w w' : WalkEvents} {l : List (Int × Event × Nat)}
    (h : Trace nodes 1 w l w') (hw : w'.depth ≤ 0) (fuel : Nat) (hf : ups l < fuel) :
    (visited l = [] ∧ Inside.nextLoop nodes fuel w = (WalkEvents.default, .none)) ∨
    (∃ n, (visited l).map (·.2) = [n] ∧
      Inside.nextLoop nodes fuel w = (WalkEvents.default, .some n)) ∨
    (∃ n l' w'', (visited l).map (·.2) = n :: (visited l').map (·.2) ∧ ups l' ≤ ups l ∧
      l'.length < l.length ∧
      Inside.nextLoop nodes fuel w = (w'', .some n) ∧ Trace nodes 1 w'' l' w') := by
  induction h generalizing fuel with
  | @one w w' e n he =>
    cases fuel with
    | zero => simp at hf
    | succ fuel =>
      by_cases hu : e = .up
      · subst hu
        left
        rw [ups_cons] at hf
        simp only [if_true] at hf
        cases fuel with
        | zero => omega
        | succ fuel =>
          refine ⟨by rw [visited_up]; rfl, ?_⟩
          have hd : WalkEvents.next nodes WalkEvents.default = (WalkEvents.default, .none) := rfl
          simp [Inside.nextLoop, he, hw, hd]
      · right; left
        refine ⟨n, by rw [visited_other _ hu]; rfl, ?_⟩
        simp [Inside.nextLoop, he, hw, hu]
  | @cons w w1 w2 e n l he hd htr ih =>
    cases fuel with
    | zero => simp at hf
    | succ fuel =>
      rw [ups_cons] at hf
      have hd' : ¬ w1.depth ≤ 0 := by omega
      by_cases hu : e = .up
      · subst hu
        simp only [if_true] at hf
        have hstep : Inside.nextLoop nodes (fuel + 1) w = Inside.nextLoop nodes fuel w1 := by
          simp [Inside.nextLoop, he, hd']
        rw [hstep, visited_up]
        rcases ih hw fuel (by omega) with h1 | h1 | ⟨m, l', w'', h1, h2, h3, h4, h5⟩
        · exact .inl h1
        · exact .inr (.inl h1)
        · exact .inr (.inr ⟨m, l', w'', h1, by rw [ups_cons]; omega, by simp; omega, h4, h5⟩)
      · right; right
        refine ⟨n, l, w1, by rw [visited_other _ hu]; rfl, by rw [ups_cons]; omega, by simp, ?_, htr⟩
        simp [Inside.nextLoop, he, hd', hu]

theorem inside_default (nodes : Slice α) (fuel : Nat) :
    Yields (Inside.nextLoop nodes (fuel + 1)) WalkEvents.default [] :=
  .done (s' := WalkEvents.default)
    (by simp [Inside.nextLoop, WalkEvents.next, WalkEvents.default])

theorem Trace.insideYields {nodes : Slice α} (fuel : Nat) (l : List (Int × Event × Nat)) :
    ∀ {w w' : WalkEvents}, Trace nodes 1 w l w' → w'.depth ≤ 0 → ups l < fuel →
    Yields (Inside.nextLoop nodes fuel) w ((visited l).map (·.2)) := by
  induction hn : l.length using Nat.strongRecOn generalizing l with
  | _ n ih =>
    intro w w' h hw hf
    have hfuel : ∃ k, fuel = k + 1 := ⟨fuel - 1, by omega⟩
    rcases h.inside hw fuel hf with ⟨h1, h2⟩ | ⟨m, h1, h2⟩ | ⟨m, l', w'', h1, h2, h3, h4, h5⟩
    · rw [h1]; exact .done h2
    · rw [h1]
      refine .item h2 ?_
      obtain ⟨k, rfl⟩ := hfuel
      exact inside_default nodes k
    · rw [h1]; exact .item h4 (ih _ (by omega) l' rfl h5 hw (by omega))

theorem Represents.inside {g : Bool} {t : Tree α} {F : Forest (Lab α)} (h : Represents g t F)
    {anc : List (Lab α)} {left kids right : Forest (Lab α)} {x : Lab α}
    (hl : Loc F anc left x kids right) :
    Yields (Inside.next t.nodes) (nodeWalk x.id) (x.id :: kids.ids) ∧
    Yields (Inside.next t.nodes) (nodeWalkFrom x.id) [] := by
  obtain ⟨l, hl', hx⟩ := hl.links h.root
  have hexit : ∀ par nxt, (exitState par nxt 0).depth ≤ 0 := by
    intro par nxt; cases nxt <;> simp [exitState]
  have hpos : 0 < t.nodes.length := by
    have := (List.getElem?_eq_some_iff.1 hx).1
    omega
  have hfuel : ∃ k, t.nodes.length = k + 1 := ⟨t.nodes.length - 1, by omega⟩
  obtain ⟨k0, hk0⟩ := hfuel
  constructor
  · by_cases hk : kids = .nil
    · subst hk
      have hs := step_leaf hx .next 0
      refine .item (s' := WalkEvents.default) ?_ (inside_default _ _)
      simp only [Inside.next, Inside.nextLoop, nodeWalk, WalkEvents.new, Option.map_some, hs]
      simp [hexit]
    · obtain ⟨f, hf⟩ : ∃ f, kids.headId = some f := by
        cases kids with
        | nil => exact absurd rfl hk
        | cons y _ _ => exact ⟨y.id, rfl⟩
      rw [hf] at hx
      have hs := step_down hx (e := .next) (by simp) 0
      have ht := trace_seg kids (0 + 1) (hl.kids h.root) (e := .down) (by simp) hf
      have hd : (exitState (some x.id) none (0 + 1)).depth ≤ 0 := by simp [exitState]
      have hu : ups (devents .down (0 + 1) kids) < t.nodes.length + 1 := by
        have h1 := ups_devents .down (by simp) (0 + 1) kids
        obtain ⟨pre, post, e⟩ := hl.split
        have h2 : F.size = t.nodes.length := h.size
        rw [← preorder_length, e] at h2
        have h3 := preorder_length kids
        simp at h2
        omega
      have := Trace.insideYields (t.nodes.length + 1) _ (ht.mono (by omega)) hd hu
      rw [visited_ids _ (by simp)] at this
      refine .item (next := Inside.next t.nodes) (s' := ⟨some (f, .down), 0 + 1⟩) ?_ this
      simp only [Inside.next, Inside.nextLoop, nodeWalk, WalkEvents.new, Option.map_some, hs]
      simp
  · have hs := step_up hx 0
    refine .done (s' := WalkEvents.default) ?_
    simp only [Inside.next, hk0, Inside.nextLoop, nodeWalkFrom, WalkEvents.new, Option.map_some, hs]
    simp [hexit, WalkEvents.next, WalkEvents.default]

end Syntree
