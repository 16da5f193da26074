import Verif.Model.Asking
import Verif.Spec.Asking
import Verif.Proof.Nav
import Verif.Proof.More
import Verif.Proof.EditTree

namespace Syntree

open Forest

variable {α : Type} {μ : Type}

theorem findLoopWith_spec {σ β : Type} {next : NextFn σ β} (p : μ → β → μ × Bool) {s : σ}
    {l : List β} (h : Yields next s l) : ∀ (m : μ) (fuel : Nat), l.length < fuel →
    ∃ s', findLoopWith next p fuel m s = ((askUntil p m l).1, s', Got.ofOption (askUntil p m l).2) ∧
      ((askUntil p m l).2 = none → ∃ s0, next s0 = (s', .none)) ∧
      ∀ x, (askUntil p m l).2 = some x → ∃ pre post, l = pre ++ x :: post ∧ Yields next s' post := by
  induction h with
  | @done s s' e =>
    intro m fuel hf
    cases fuel with
    | zero => simp at hf
    | succ fuel =>
      refine ⟨s', by simp [findLoopWith, e, askUntil, Got.ofOption], fun _ => ⟨s, e⟩, ?_⟩
      simp [askUntil]
  | @item s s' x l e h ih =>
    intro m fuel hf
    cases fuel with
    | zero => simp at hf
    | succ fuel =>
      simp only [List.length_cons] at hf
      rcases hp : p m x with ⟨m', b⟩
      cases b with
      | true =>
        refine ⟨s', by simp [findLoopWith, e, askUntil, hp, Got.ofOption], by simp [askUntil, hp], ?_⟩
        intro y hy
        simp only [askUntil, hp, if_true, Option.some.injEq] at hy
        subst hy
        exact ⟨[], l, rfl, h⟩
      | false =>
        obtain ⟨s'', h1, h0, h2⟩ := ih m' fuel (by omega)
        refine ⟨s'', by simp [findLoopWith, e, askUntil, hp, h1], by simpa [askUntil, hp] using h0, ?_⟩
        intro y hy
        simp only [askUntil, hp, Bool.false_eq_true, if_false] at hy
        obtain ⟨pre, post, e1, e2⟩ := h2 y hy
        exact ⟨x :: pre, post, by rw [e1]; rfl, e2⟩

/-- Only those that pass the filter are asked about. -/
theorem askUntil_filter {β : Type} (q : β → Bool) (p : μ → β → μ × Bool) (l : List β) :
    ∀ m, askUntil (fun m n => if q n then p m n else (m, false)) m l =
      askUntil p m (l.filter q) := by
  induction l with
  | nil => intro m; rfl
  | cons x l ih =>
    intro m
    cases hq : q x with
    | true => simp only [askUntil, List.filter_cons_of_pos hq, hq, if_true, ih]
    | false => simp [askUntil, hq, ih]

theorem askUntil_pure {β : Type} (p : β → Bool) (m : μ) (l : List β) :
    askUntil (fun m n => (m, p n)) m l = (m, l.find? p) := by
  induction l with
  | nil => rfl
  | cons x l ih => cases hp : p x <;> simp [askUntil, hp, ih]

theorem findLoopWith_pure {σ β : Type} (next : NextFn σ β) (p : β → Bool) (m : μ) :
    ∀ (fuel : Nat) (s : σ), findLoopWith next (fun m n => (m, p n)) fuel m s =
      (m, findLoop next p fuel s) := by
  intro fuel
  induction fuel with
  | zero => intro s; rfl
  | succ fuel ih =>
    intro s
    simp only [findLoopWith, findLoop]
    rcases next s with ⟨s', _ | x | _⟩
    · rfl
    · simp only
      cases p x with
      | true => rfl
      | false => simp [ih]
    · rfl

theorem findPrecedingUpWith_pure (nodes : Slice α) (p : Nat → Bool) (m : μ) :
    ∀ (fuel n : Nat), findPrecedingUpWith nodes (fun m n => (m, p n)) fuel m n =
      (m, findPrecedingUp nodes p fuel n) := by
  intro fuel
  induction fuel with
  | zero => intro n; rfl
  | succ fuel ih =>
    intro n
    simp only [findPrecedingUpWith, findPrecedingUp]
    cases nodePrev nodes n with
    | none => cases nodeParent nodes n <;> simp [ih]
    | some b =>
      simp only
      cases p b with
      | true => rfl
      | false => cases nodeParent nodes n <;> simp [ih]

theorem findPrecedingDownWith_pure (nodes : Slice α) (p : Nat → Bool) (m : μ) :
    ∀ (fuel n : Nat), findPrecedingDownWith nodes (fun m n => (m, p n)) fuel m n =
      (m, findPrecedingDown nodes p fuel n) := by
  intro fuel
  induction fuel with
  | zero => intro n; rfl
  | succ fuel ih =>
    intro n
    simp only [findPrecedingDownWith, findPrecedingDown]
    cases nodeLast nodes n with
    | none => rfl
    | some b =>
      simp only
      cases p b with
      | true => simp [ih]
      | false => rfl

theorem findPrecedingWith_pure (nodes : Slice α) (p : Nat → Bool) (m : μ) (n : Nat) :
    findPrecedingWith nodes (fun m n => (m, p n)) m n = (m, findPreceding nodes p n) := by
  simp only [findPrecedingWith, findPreceding, findPrecedingUpWith_pure]
  cases findPrecedingUp nodes p (nodes.length + 1) n <;> simp [findPrecedingDownWith_pure]

/-! ## On trees -/

theorem Represents.ascendWith {g : Bool} {t : Tree α} {F : Forest (Lab α)} (h : Represents g t F)
    (p : μ → Nat → μ × Bool) (anc : List (Lab α)) :
    ∀ {left kids right : Forest (Lab α)} {x : Lab α} {fuel : Nat} (m : μ),
    Loc F anc left x kids right → anc.length < fuel →
    let r := askUntil p m ((x.id :: anc.map (·.id)).filterMap (nodePrev t.nodes))
    findPrecedingUpWith t.nodes p fuel m x.id = (r.1, Got.ofOption r.2) := by
  induction anc with
  | nil =>
    intro left kids right x fuel m hl hf
    cases fuel with
    | zero => simp at hf
    | succ fuel =>
      have hpar : nodeParent t.nodes x.id = none := h.node_parent hl
      simp only [findPrecedingUpWith, hpar, List.map_nil]
      cases hprev : nodePrev t.nodes x.id with
      | none => simp [hprev, askUntil, Got.ofOption]
      | some b => rcases hp : p m b with ⟨m', _ | _⟩ <;> simp [hprev, askUntil, hp, Got.ofOption]
  | cons q anc ih =>
    intro left kids right x fuel m hl hf
    cases fuel with
    | zero => simp at hf
    | succ fuel =>
      have hpar : nodeParent t.nodes x.id = some q.id := h.node_parent hl
      obtain ⟨l, r, hq⟩ := hl.parent
      have key := fun m => ih (m := m) hq (fuel := fuel) (by simpa using hf)
      simp only at key
      simp only [findPrecedingUpWith, hpar, List.map_cons]
      cases hprev : nodePrev t.nodes x.id with
      | none => rw [List.filterMap_cons_none hprev]; exact key m
      | some b =>
        rw [List.filterMap_cons_some hprev]
        rcases hp : p m b with ⟨m', _ | _⟩
        · simp [askUntil, hp, key m']
        · simp [askUntil, hp, Got.ofOption]

/-- The nodes reached through `last()`: each is below the one before. -/
theorem Represents.last_chain {g : Bool} {t : Tree α} {F : Forest (Lab α)} (h : Represents g t F)
    (n : Nat) : ∀ {anc : List (Lab α)} {left kids right : Forest (Lab α)} {x : Lab α},
    Loc F anc left x kids right → kids.size < n →
    ∃ l : List (Lab α), l.length < n ∧ Iterated (nodeLast t.nodes) x.id (l.map (·.id)) ∧
      ∀ y ∈ l, y ∈ kids.preorder := by
  induction n with
  | zero => intro _ _ _ _ _ _ hf; simp at hf
  | succ n ih =>
    intro anc left kids right x hl hf
    have hlr := h.node_last hl
    cases hlast : nodeLast t.nodes x.id with
    | none => exact ⟨[], by simp, .stop hlast, by simp⟩
    | some c =>
      have hk : kids ≠ .nil := by
        intro hk
        rw [hlr.1 hk] at hlast; simp at hlast
      obtain ⟨i, hi, hm⟩ := hlr.2.1 hk
      rw [hlast] at hi
      simp only [Option.some.injEq] at hi
      subst hi
      obtain ⟨y, hy, rfl⟩ := List.mem_map.1 hm
      obtain ⟨anc', l', k', r', hy'⟩ := Loc.exists_of_mem (mem_preorder_of_spine hy)
      have hsz := hy'.depth_lt
      simp only [Forest.size] at hsz
      obtain ⟨l, h0, h1, h2⟩ := ih (hl.trans hy') (by omega)
      refine ⟨y :: l, by simpa using h0, .step hlast h1, ?_⟩
      intro z hz
      rcases List.mem_cons.1 hz with rfl | hz
      · exact hy'.mem
      · obtain ⟨pre, post, e⟩ := hy'.split
        rw [e]; simp [h2 z hz]

theorem descendWith (nodes : Slice α) (p : μ → Nat → μ × Bool) {b : Nat} {l : List Nat}
    (h : Iterated (nodeLast nodes) b l) : ∀ (m : μ) (fuel : Nat), l.length < fuel →
    findPrecedingDownWith nodes p fuel m b =
      ((askWhile p m b l).1, .some (askWhile p m b l).2) := by
  induction h with
  | stop e =>
    intro m fuel hf
    cases fuel with
    | zero => simp at hf
    | succ fuel => simp [findPrecedingDownWith, e, askWhile]
  | @step b c l e h ih =>
    intro m fuel hf
    cases fuel with
    | zero => simp at hf
    | succ fuel =>
      simp only [List.length_cons] at hf
      rcases hp : p m c with ⟨m', _ | _⟩
      · simp [findPrecedingDownWith, e, askWhile, hp]
      · simp [findPrecedingDownWith, e, askWhile, hp, ih m' fuel (by omega)]

/-! ## No node is asked about twice -/

theorem lastId_split {F : Forest (Lab α)} {i : Nat} (h : F.lastId = some i) :
    ∃ L y k, F = L ++ Forest.cons y k .nil ∧ y.id = i := by
  induction F with
  | nil => simp at h
  | cons x k r _ ih =>
    cases r with
    | nil => exact ⟨.nil, x, k, rfl, by simpa using h⟩
    | cons y k' r' =>
      obtain ⟨j, hj⟩ := lastId_isSome (F := Forest.cons y k' r') (by simp)
      rw [lastId_cons, hj] at h
      simp only [Option.some_or, Option.some.injEq] at h
      obtain ⟨L, z, k2, e, hz⟩ := ih (by rw [hj, h])
      exact ⟨.cons x k L, z, k2, by rw [e]; rfl, hz⟩

/-- The previous sibling of a node has a place with the same ancestors. -/
theorem Represents.prev_loc {g : Bool} {t : Tree α} {F : Forest (Lab α)} (h : Represents g t F)
    {anc : List (Lab α)} {left kids right : Forest (Lab α)} {x : Lab α}
    (hl : Loc F anc left x kids right) {b : Nat} (hb : nodePrev t.nodes x.id = some b) :
    ∃ L y k, y.id = b ∧ Loc F anc L y k (.cons x kids right) := by
  rw [h.node_prev hl] at hb
  obtain ⟨L, y, k, e, hy⟩ := lastId_split hb
  refine ⟨L, y, k, hy, hl.shift (left' := L) ?_⟩
  rw [e]
  simp [Forest.append_assoc]

/-- The candidates on the way up are previous siblings of the node or of an ancestor: their
ancestors are those of that node. -/
theorem Represents.ups_loc {g : Bool} {t : Tree α} {F : Forest (Lab α)} (h : Represents g t F)
    (anc : List (Lab α)) : ∀ {left kids right : Forest (Lab α)} {x : Lab α},
    Loc F anc left x kids right →
    ∀ b ∈ (x.id :: anc.map (·.id)).filterMap (nodePrev t.nodes),
      ∃ pre a post L y k ka ra, x :: anc = pre ++ a :: post ∧ y.id = b ∧
        Loc F post L y k (.cons a ka ra) := by
  induction anc with
  | nil =>
    intro left kids right x hl b hb
    simp only [List.map_nil, List.mem_filterMap, List.mem_singleton] at hb
    obtain ⟨c, rfl, hb⟩ := hb
    obtain ⟨L, y, k, e, hy⟩ := h.prev_loc hl hb
    exact ⟨[], x, [], L, y, k, kids, right, rfl, e, hy⟩
  | cons q anc ih =>
    intro left kids right x hl b hb
    simp only [List.map_cons, List.mem_filterMap, List.mem_cons] at hb
    obtain ⟨c, hc, hb⟩ := hb
    rcases hc with rfl | hc
    · obtain ⟨L, y, k, e, hy⟩ := h.prev_loc hl hb
      exact ⟨[], x, q :: anc, L, y, k, kids, right, rfl, e, hy⟩
    · obtain ⟨l, r, hq⟩ := hl.parent
      obtain ⟨pre, a, post, L, y, k, ka, ra, e, e2, hy⟩ := ih hq b
        (List.mem_filterMap.2 ⟨c, by simpa using hc, hb⟩)
      exact ⟨x :: pre, a, post, L, y, k, ka, ra, by rw [e]; rfl, e2, hy⟩

theorem Represents.ups_nodup {g : Bool} {t : Tree α} {F : Forest (Lab α)} (h : Represents g t F)
    (anc : List (Lab α)) : ∀ {left kids right : Forest (Lab α)} {x : Lab α},
    Loc F anc left x kids right →
    ((x.id :: anc.map (·.id)).filterMap (nodePrev t.nodes)).Nodup := by
  induction anc with
  | nil =>
    intro left kids right x hl
    cases e : nodePrev t.nodes x.id <;> simp [e]
  | cons q anc ih =>
    intro left kids right x hl
    obtain ⟨l, r, hq⟩ := hl.parent
    have key := ih hq
    rw [List.map_cons]
    cases e : nodePrev t.nodes x.id with
    | none => rw [List.filterMap_cons_none e]; exact key
    | some b =>
      rw [List.filterMap_cons_some e, List.nodup_cons]
      refine ⟨fun hb => ?_, key⟩
      obtain ⟨L, y, k, e1, hy⟩ := h.prev_loc hl e
      obtain ⟨pre, a, post, L', y', k', ka, ra, e2, e3, hy'⟩ := h.ups_loc anc hq b hb
      have := (hy.unique h.nodup hy' (e1.trans e3.symm)).1
      have l1 := congrArg List.length e2
      rw [← this] at l1
      simp at l1
      omega

theorem Represents.asked_once {g : Bool} {t : Tree α} {F : Forest (Lab α)} (h : Represents g t F)
    {anc : List (Lab α)} {left kids right : Forest (Lab α)} {x : Lab α}
    (hl : Loc F anc left x kids right) {b : Nat}
    (hb : b ∈ (x.id :: anc.map (·.id)).filterMap (nodePrev t.nodes)) {l : List Nat}
    (hc : Iterated (nodeLast t.nodes) b l) :
    ((x.id :: anc.map (·.id)).filterMap (nodePrev t.nodes) ++ l).Nodup := by
  have hn := h.nodup
  obtain ⟨pre, a, post, L, y, k, ka, ra, e, rfl, hy⟩ := h.ups_loc anc hl b hb
  -- everything on the chain is below `y`
  have below : ∀ {c : Nat} {l : List Nat}, Iterated (nodeLast t.nodes) c l →
      ∀ {anc : List (Lab α)} {left kids right : Forest (Lab α)} {z : Lab α},
      Loc F anc left z kids right → z.id = c →
      l.Nodup ∧ ∀ i ∈ l, ∃ anc' l' w k' r', w.id = i ∧
        Loc F (anc' ++ z :: anc) l' w k' r' := by
    intro c l hc
    induction hc with
    | stop _ => intros; simp
    | @step c d l e1 _ ih =>
      intro anc left kids right z hz hzc
      subst hzc
      have hlr := h.node_last hz
      have hk : kids ≠ .nil := by
        intro hk
        rw [hlr.1 hk] at e1; simp at e1
      obtain ⟨i, hi, hm⟩ := hlr.2.1 hk
      rw [e1] at hi
      simp only [Option.some.injEq] at hi
      subst hi
      obtain ⟨w, hw, rfl⟩ := List.mem_map.1 hm
      obtain ⟨anc', l', k', r', hw'⟩ := Loc.exists_of_mem (mem_preorder_of_spine hw)
      have hw2 := hz.trans hw'
      obtain ⟨n1, n2⟩ := ih hw2 rfl
      refine ⟨List.nodup_cons.2 ⟨fun hmem => ?_, n1⟩, ?_⟩
      · obtain ⟨anc2, l2, w2, k2, r2, e2, hl2⟩ := n2 _ hmem
        have := congrArg List.length (hl2.unique hn hw2 e2).1
        simp at this
        omega
      · intro i hi
        rcases List.mem_cons.1 hi with rfl | hi
        · exact ⟨anc', l', w, k', r', rfl, hw2⟩
        · obtain ⟨anc2, l2, w2, k2, r2, e2, hl2⟩ := n2 i hi
          exact ⟨anc2 ++ w :: anc', l2, w2, k2, r2, e2, by simpa using hl2⟩
  obtain ⟨n1, n2⟩ := below hc hy rfl
  refine List.nodup_append.2 ⟨h.ups_nodup anc hl, n1, ?_⟩
  rintro u hu _ hm rfl
  obtain ⟨anc', l', w, k', r', e1, hw⟩ := n2 u hm
  obtain ⟨pre2, a2, post2, L2, y2, k2, ka2, ra2, e2, e3, hy2⟩ := h.ups_loc anc hl u hu
  have hanc := (hy2.unique hn hw (e3.trans e1.symm)).1
  -- `y` would be an ancestor of `x`, on the level of `a`
  have e4 : x :: anc = (pre2 ++ a2 :: anc') ++ y :: post := by rw [e2, hanc]; simp
  have e5 : y = a := by
    rw [e] at e4
    have := List.append_inj' e4 (by simp)
    exact (List.cons.inj this.2).1.symm
  subst e5
  have hs := hy.nodup_sibs hn
  simp only [ids_append, ids_cons, List.nodup_append, List.nodup_cons, List.mem_append,
    List.mem_cons, not_or] at hs
  exact hs.2.1.1.2.1 trivial

end Syntree
