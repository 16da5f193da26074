import Verif.Proof.Cost
import Verif.Proof.Hist
import Verif.Proof.Quadratic
import Verif.Proof.Clone
import Verif.Props.Traverse

/-!
# What things cost: C86
-/

namespace Syntree

open Forest

variable {α : Type} {fl : Flavor} {t : Tree α} {F : Forest (Lab α)}

/-- The counts used below are the numbers of rounds of the loops of the model: that many rounds
are enough for the loop to end, and fewer are not. (A loop that is cut short answers `diverge`.) -/
theorem C86_counts (nodes : List (Links α)) (fuel : Nat) :
    (∀ p cur, (restructure p fuel nodes cur).2 ≠ .error .diverge →
      Rounds (fun m => (restructure p m nodes cur).2) (· = .error .diverge)
        (restructureSteps p fuel nodes cur)) ∧
    (∀ w, (Walk.nextLoop nodes fuel w).2 ≠ .diverge →
      Rounds (fun m => (Walk.nextLoop nodes m w).2) (· = .diverge) (Walk.steps nodes fuel w)) ∧
    (∀ w, (Inside.nextLoop nodes fuel w).2 ≠ .diverge →
      Rounds (fun m => (Inside.nextLoop nodes m w).2) (· = .diverge)
        (Inside.steps nodes fuel w)) ∧
    (∀ stop n, climb nodes stop fuel n ≠ .diverge →
      Rounds (fun m => climb nodes stop m n) (· = .diverge) (climbSteps nodes stop fuel n)) :=
  ⟨fun p cur h => restructure_rounds p fuel nodes cur h, fun w h => walk_rounds nodes fuel w h,
    fun w h => inside_rounds nodes fuel w h, fun s n h => climb_rounds nodes s fuel n h⟩

/-- Re-parenting the nodes `1`, `2` of the demo tree takes two rounds. -/
example : Rounds (fun m => (restructure 9 m demoTree.nodes 1).2) (· = .error .diverge) 2 :=
  (C86_counts demoTree.nodes 9).1 9 1 (fun h => by cases h)

/-- The loop of `Walk::next` that comes out of `3` and `0` takes two rounds more. -/
example : Rounds (fun m => (Walk.nextLoop demoTree.nodes m ⟨some (4, .next), 1⟩).2)
    (· = .diverge) 1 ∧
    Rounds (fun m => (Walk.nextLoop demoTree.nodes m ⟨some (3, .up), 1⟩).2) (· = .diverge) 2 :=
  ⟨(C86_counts demoTree.nodes 7).2.1 ⟨some (4, .next), 1⟩ (by decide +kernel),
    (C86_counts demoTree.nodes 7).2.1 ⟨some (3, .up), 1⟩ (by decide +kernel)⟩

/-- C86: over a whole history that uses no swallowed checkpoint, whatever calls it contains and
whether they succeed, all the calls of `close_at` together look at no more siblings than there are
nodes in the end. (Every other call does a fixed amount of work.) -/
theorem C86_building_is_linear {ops : List (Op α)} {n : Nest α} {os : List (Except Err Out)}
    (h : Nest.init.run fl ops = some (n, os)) :
    Sys.init.runSteps fl ops ≤ (Sys.init.run fl ops).1.b.tree.len := by
  obtain ⟨s, e, r⟩ := (Rel.init false).run (g' := false) fl ops h (by simp)
  have := (Rel.init (α := α) false).potRun fl ops h
  rw [e]
  have hl : s.b.tree.nodes.length = n.count := r.tree.len
  simp only [Nest.pot, Nest.init, tops, List.length_nil, List.map_nil, List.sum_nil] at this
  simp only [Tree.len]
  omega

/-- A left-leaning chain `((((a b) c) d) e)`, every level made with the one checkpoint at the
front: five tokens, four wrappers, and four steps. -/
example : Sys.init.runSteps (α := Nat) Flavor.default
    [.checkpoint, .token 1 1, .token 2 1, .closeAt 0 9, .token 3 1, .closeAt 0 9, .token 4 1,
      .closeAt 0 9, .token 5 1, .closeAt 0 9] = 4 ∧
    Sys.init.runSteps (α := Nat) Flavor.default
    [.checkpoint, .token 1 1, .token 2 1, .closeAt 0 9, .token 3 1, .closeAt 0 9, .token 4 1,
      .closeAt 0 9, .token 5 1, .closeAt 0 9] ≤ 9 :=
  ⟨by decide +kernel, C86_building_is_linear (n := _) (os := _) rfl⟩

/-- C86: a successful `close_at` or `close_at_with` at the end of a history that uses no swallowed
checkpoint looks at the children of the node it makes, except the first one, and at nothing else:
`cs` is what `children()` of the new node `i` gives right after the call. -/
theorem C86_close_at_visits {ops : List (Op α)} {op : Op α} {k i : Nat} {d : α} {sp : Span}
    (hop : op = .closeAt k d ∨ op = .closeAtWith k d sp) {n : Nest α}
    {os : List (Except Err Out)} (h : Nest.init.run fl (ops ++ [op]) = some (n, os))
    (hi : ((Sys.init.run fl ops).1.step fl op).2 = .ok (.id i)) :
    ∃ cs, Yields (Children.next ((Sys.init.run fl ops).1.step fl op).1.b.tree.nodes)
        (nodeChildren ((Sys.init.run fl ops).1.step fl op).1.b.tree.nodes i) cs ∧
      (Sys.init.run fl ops).1.steps fl op = cs.length - 1 := by
  rw [Nest.run_append] at h
  cases e1 : Nest.init.run fl ops with
  | none => rw [e1] at h; simp at h
  | some p =>
    obtain ⟨n1, os1⟩ := p
    rw [e1] at h
    obtain ⟨s, es, r⟩ := (Rel.init false).run (g' := false) fl ops e1 (by simp)
    simp only [Nest.run] at h
    cases e2 : n1.step fl op with
    | none => rw [e2] at h; simp at h
    | some q =>
      obtain ⟨n2, o⟩ := q
      obtain ⟨s', e3, r'⟩ := r.step (g' := false) fl op e2 (by simp)
      rw [es] at hi ⊢
      simp only at hi ⊢
      rw [e3] at hi ⊢
      simp only at hi ⊢
      subst hi
      have hc : ∃ explicit, n1.closeAt fl k d explicit = some (n2, .ok (.id i)) := by
        rcases hop with rfl | rfl
        · exact ⟨_, e2⟩
        · exact ⟨_, e2⟩
      obtain ⟨explicit, hc⟩ := hc
      obtain ⟨c, cs, h1, h2, h3⟩ := r.closeAt_children r' fl hc
      refine ⟨cs, h2, ?_⟩
      rcases hop with rfl | rfl <;> simpa [Sys.steps, h1] using h3

/-- Three tokens after the checkpoint, one before it: two siblings are looked at. -/
example : Yields (Children.next ((Sys.init.run Flavor.default
      [Op.token 0 1, .checkpoint, .token 1 1, .token 2 1, .token 3 1]).1.step Flavor.default
      (.closeAt 0 9)).1.b.tree.nodes) ⟨some 1, some 3⟩ [1, 2, 3] ∧
    (Sys.init.run Flavor.default
      [Op.token 0 1, .checkpoint, .token 1 1, .token 2 1, .token 3 1]).1.steps Flavor.default
      (.closeAt 0 9) = 2 := by
  obtain ⟨cs, h1, h2⟩ := C86_close_at_visits (α := Nat) (fl := Flavor.default) (i := 4) (sp := ⟨0, 0⟩)
    (ops := [Op.token 0 1, .checkpoint, .token 1 1, .token 2 1, .token 3 1]) (op := .closeAt 0 9)
    (.inl rfl) (n := _) (os := _) rfl rfl
  have h3 : Yields (Children.next ((Sys.init.run Flavor.default
      [Op.token 0 1, .checkpoint, .token 1 1, .token 2 1, .token 3 1]).1.step Flavor.default
      (.closeAt 0 9)).1.b.tree.nodes) ⟨some 1, some 3⟩ [1, 2, 3] :=
    .item rfl (.item rfl (.item rfl (.done rfl)))
  have := h3.det h1
  subst this
  exact ⟨h3, h2⟩

/-- C86 fails for swallowed checkpoints: six tokens, each with its own checkpoint, and then every
checkpoint used, the first one first: fifteen siblings are looked at, although only twelve nodes
are made. -/
theorem C86_swallowed_fails : ∃ (ops : List (Op Nat)) (t : Tree Nat),
    (Sys.init.run Flavor.default ops).1.b.build = .ok t ∧
    (∀ r ∈ (Sys.init.run Flavor.default ops).2, r.isOk = true) ∧
    t.len = 12 ∧ Sys.init.runSteps Flavor.default ops = 15 :=
  ⟨[.checkpoint, .token 1 1, .checkpoint, .token 1 1, .checkpoint, .token 1 1, .checkpoint,
    .token 1 1, .checkpoint, .token 1 1, .checkpoint, .token 1 1, .closeAt 0 9, .closeAt 1 9,
    .closeAt 2 9, .closeAt 3 9, .closeAt 4 9, .closeAt 5 9], _, rfl, by decide +kernel, rfl,
    by decide +kernel⟩

/-- `m` tokens of no length side by side, a checkpoint before each of them, and then every
checkpoint used, the first one first. -/
def swallowAll (d e : α) (m : Nat) : List (Op α) :=
  (List.replicate m [Op.checkpoint, .tokenEmpty d]).flatten ++
    (List.range m).map (Op.closeAt · e)

/-- C86 fails for swallowed checkpoints in every flavor and at every size: as long as there are
pointers for them, `m` tokens and `m` wrappers cost `0 + 1 + ... + (m - 1)` steps, although every
call succeeds and the tree has no more than `2 * m` nodes. -/
theorem C86_swallowed_is_quadratic (fl : Flavor) (d e : α) (m : Nat) (hm : 2 * m < 2 ^ fl.width) :
    ∃ t, (Sys.init.run fl (swallowAll d e m)).1.b.build = .ok t ∧ t.len = 2 * m ∧
      (∀ r ∈ (Sys.init.run fl (swallowAll d e m)).2, r.isOk = true) ∧
      2 * Sys.init.runSteps fl (swallowAll d e m) = m * (m - 1) := by
  obtain ⟨a1, b1, c1⟩ := (SwLaid.init (α := α)).all d m (fl := fl) (by omega)
  rw [Nat.zero_add] at a1
  obtain ⟨a2, b2, c2⟩ := SwUsed.all e hm m 0 a1.used (by omega)
  unfold swallowAll
  rw [List.range_eq_range', Sys.run_append, Sys.runSteps_append, c1, Nat.zero_add]
  refine ⟨(((Sys.init.run fl (List.replicate m [Op.checkpoint, .tokenEmpty d]).flatten).1).run fl
    ((List.range' 0 m).map (Op.closeAt · e))).1.b.tree, ?_, ?_, ?_, c2⟩
  · unfold Builder.build
    dsimp only
    rw [a2.parent]
    rfl
  · have := a2.len
    simp only [Tree.len]
    omega
  · intro r hr
    rcases List.mem_append.1 hr with hr | hr
    · exact b1 r hr
    · exact b2 r hr

example : 2 * Sys.init.runSteps Flavor.default (swallowAll 1 9 1000) = 1000 * 999 :=
  (C86_swallowed_is_quadratic Flavor.default 1 9 1000 (by decide +kernel)).choose_spec.2.2.2

/-- C86: so no constant `c`, however large, bounds the steps of building by `c` times the number of
nodes, whatever the history, in a flavor that has room for `8 * c + 4` nodes. -/
theorem C86_no_linear_bound (fl : Flavor) (d : α) (c : Nat) (hc : 8 * c + 4 < 2 ^ fl.width) :
    ∃ (ops : List (Op α)) (t : Tree α), (Sys.init.run fl ops).1.b.build = .ok t ∧
      (∀ r ∈ (Sys.init.run fl ops).2, r.isOk = true) ∧
      c * t.len < Sys.init.runSteps fl ops := by
  obtain ⟨t, h1, h2, h3, h4⟩ := C86_swallowed_is_quadratic fl d d (4 * c + 2) (by omega)
  refine ⟨_, t, h1, h3, ?_⟩
  rw [h2]
  have e : (4 * c + 2) * (4 * c + 2 - 1) = 2 * (c * (2 * (4 * c + 2)) + (2 * c + 1)) := by
    rw [show 4 * c + 2 - 1 = 4 * c + 1 by omega, Nat.mul_add (4 * c + 2)]
    have : c * (2 * (4 * c + 2)) = 2 * c * (4 * c + 2) := by
      rw [← Nat.mul_assoc, Nat.mul_comm c 2]
    have h5 : (4 * c + 2) * (4 * c) = 2 * (2 * c * (4 * c + 2)) := by
      rw [Nat.mul_comm (4 * c + 2), ← Nat.mul_assoc]
      congr 1
      omega
    omega
  omega

example : ∃ (ops : List (Op Nat)) (t : Tree Nat),
    (Sys.init.run Flavor.default ops).1.b.build = .ok t ∧
    (∀ r ∈ (Sys.init.run Flavor.default ops).2, r.isOk = true) ∧
    1000000 * t.len < Sys.init.runSteps Flavor.default ops :=
  C86_no_linear_bound Flavor.default 0 1000000 (by decide +kernel)

/-- How many calls of a history are `close_at` or `close_at_with`. -/
def Op.closings (ops : List (Op α)) : Nat :=
  ops.countP fun op => match op with
    | .closeAt .. | .closeAtWith .. => true
    | _ => false

theorem restructureSteps_le (p : Nat) : ∀ (fuel : Nat) (nodes : List (Links α)) (cur : Nat),
    restructureSteps p fuel nodes cur ≤ fuel
  | 0, _, _ => Nat.le_refl _
  | fuel + 1, nodes, cur => by
    unfold restructureSteps
    cases nodes[cur]? with
    | none => exact Nat.le_add_left 1 fuel
    | some l =>
      dsimp only
      cases l.next with
      | none => exact Nat.le_add_left 1 fuel
      | some n =>
        dsimp only
        rw [Nat.add_comm]
        exact Nat.succ_le_succ (restructureSteps_le p fuel _ n)

theorem Builder.closeAtSteps_le (cells : Cells) (b : Builder α) (c : Nat) :
    b.closeAtSteps fl cells c ≤ b.tree.len + 1 := by
  unfold Builder.closeAtSteps
  split
  · exact Nat.zero_le _
  · split
    · exact Nat.zero_le _
    · split
      · exact Nat.zero_le _
      · split
        · exact Nat.zero_le _
        · dsimp only
          split
          · refine Nat.le_trans (restructureSteps_le _ _ _ _) ?_
            simp [Tree.len]
          · exact Nat.zero_le _

/-- C86: whatever a history does, swallowed checkpoints and failing calls included, a call of
`close_at` looks at no more siblings than there are nodes, and one; so building is at most quadratic.
(That the loop ends within this many rounds: C28, C49.) -/
theorem C86_building_is_quadratic (ops : List (Op α)) :
    Sys.init.runSteps fl ops ≤ Op.closings ops * ((Sys.init.run fl ops).1.b.tree.len + 1) := by
  suffices key : ∀ (ops : List (Op α)) (s : Sys α), s.runSteps fl ops ≤
      Op.closings ops * ((s.run fl ops).1.b.tree.len + 1) ∧
      s.b.tree.len ≤ (s.run fl ops).1.b.tree.len from (key ops Sys.init).1
  intro ops
  induction ops with
  | nil => intro s; exact ⟨Nat.zero_le _, Nat.le_refl _⟩
  | cons op ops ih =>
    intro s
    obtain ⟨h1, h2⟩ := ih (s.step fl op).1
    have hm : s.b.tree.len ≤ (s.step fl op).1.b.tree.len := Sys.step_len_le s op
    have hrun : (s.run fl (op :: ops)).1 = ((s.step fl op).1.run fl ops).1 := rfl
    rw [hrun]
    refine ⟨?_, Nat.le_trans hm h2⟩
    have hs : s.steps fl op ≤ Op.closings [op] * (((s.step fl op).1.run fl ops).1.b.tree.len + 1) := by
      have key : s.steps fl op ≤ s.b.tree.len + 1 := by
        unfold Sys.steps
        split
        · split
          · exact Nat.zero_le _
          · exact Builder.closeAtSteps_le _ _ _
        · split
          · exact Nat.zero_le _
          · exact Builder.closeAtSteps_le _ _ _
        · exact Nat.zero_le _
      cases op with
      | closeAt k d =>
        simp only [Op.closings, List.countP_cons, List.countP_nil, if_true]
        omega
      | closeAtWith k d sp =>
        simp only [Op.closings, List.countP_cons, List.countP_nil, if_true]
        omega
      | _ => exact Nat.zero_le _
    have e : Op.closings (op :: ops) = Op.closings [op] + Op.closings ops := by
      simp only [Op.closings, List.countP_cons, List.countP_nil]; omega
    simp only [Sys.runSteps]
    rw [e, Nat.add_mul]
    exact Nat.add_le_add hs h1

/-- The history of `C86_swallowed_fails`. -/
def swallowedOps : List (Op Nat) :=
  [.checkpoint, .token 1 1, .checkpoint, .token 1 1, .checkpoint, .token 1 1, .checkpoint,
    .token 1 1, .checkpoint, .token 1 1, .checkpoint, .token 1 1, .closeAt 0 9, .closeAt 1 9,
    .closeAt 2 9, .closeAt 3 9, .closeAt 4 9, .closeAt 5 9]

/-- Six calls of `close_at`, twelve nodes. -/
example : Sys.init.runSteps Flavor.default swallowedOps = 15 ∧ Op.closings swallowedOps = 6 ∧
    Sys.init.runSteps Flavor.default swallowedOps ≤
      6 * ((Sys.init.run Flavor.default swallowedOps).1.b.tree.len + 1) :=
  ⟨by decide +kernel, rfl, C86_building_is_quadratic swallowedOps⟩

/-- C86: a complete walk, with the call that returns `None`, takes as many lookups as there are
nodes, and one more for each node with children, and one: never more than `2 * len() + 1`. -/
theorem C86_walk_is_linear (h : Made fl t F) :
    ∃ n, Spends (Walk.next t.nodes) (Walk.steps t.nodes (t.len + 1)) t.walk
      (F.preorder.map (·.id)) n ∧ n = t.len + F.inner.length + 1 ∧ n ≤ 2 * t.len + 1 := by
  have hr := h.represents
  have hs := hr.rest.walkSpends (t.nodes.length + 1) _ (by have := hr.ups_le 0; omega)
  rw [visited_ids _ (by simp)] at hs
  have h1 := devents_length .next 0 F
  have h2 := leaves_inner F
  have h3 : F.size = t.nodes.length := hr.size
  refine ⟨_, hs, ?_, ?_⟩ <;> simp only [Tree.len] <;> omega

/-- Six nodes, two of them with children: nine lookups. -/
example : Spends (Walk.next demoTree.nodes) (Walk.steps demoTree.nodes 7) demoTree.walk
    [0, 3, 1, 2, 4, 5] 9 := by
  obtain ⟨n, h1, h2, _⟩ := C86_walk_is_linear demo_made
  rw [show n = 9 by rw [h2]; rfl] at h1
  exact h1

/-- C86: a walk over the subtree of a node (`node.walk().inside()`) costs at most twice the number
of its nodes, however large the rest of the tree is. -/
theorem C86_inside_is_local (h : Made fl t F) {anc : List (Lab α)}
    {left kids right : Forest (Lab α)} {x : Lab α} (hl : Loc F anc left x kids right) :
    ∃ n, Spends (Inside.next t.nodes) (Inside.steps t.nodes (t.len + 1)) (nodeWalk x.id)
      (x.id :: kids.preorder.map (·.id)) n ∧ n = 2 + kids.size + kids.inner.length ∧
      n ≤ 2 * (1 + kids.size) := by
  obtain ⟨n, h1, h2⟩ := h.represents.insideSpends hl
  have h3 := leaves_inner kids
  exact ⟨n, h1, by omega, by omega⟩

example : Spends (Inside.next demoTree.nodes) (Inside.steps demoTree.nodes 7) (nodeWalk 3)
    [3, 1, 2] 4 := by
  obtain ⟨n, h1, h2, _⟩ := C86_inside_is_local demo_made demo_loc
  rw [show n = 4 by rw [h2]; rfl] at h1
  exact h1

/-- C86: a range query that the index sends to node `i` looks at no more nodes than `i` has
ancestors, and one. -/
theorem C86_query_climbs (h : Made fl t F) (stop fuel : Nat) {i : Nat} {path : List Nat}
    (hi : i < t.len) (hp : Yields (Ancestors.next t.nodes) (nodeAncestors i) path) :
    climbSteps t.nodes stop fuel i ≤ path.length := by
  have hr := h.represents
  obtain ⟨anc, left, x, kids, right, rfl, hl⟩ := (C17_links_match_place h).1 i hi
  have := (hr.ancestors hl).det hp
  subst this
  have := hr.climbSteps stop anc fuel hl
  simpa using this

example : climbSteps demoTree.nodes 99 7 3 ≤ 2 ∧ climbSteps demoTree.nodes 99 7 3 = 2 ∧
    climbSteps demoTree.nodes 3 7 3 = 1 :=
  ⟨C86_query_climbs (path := [3, 0]) demo_made 99 7 (by decide +kernel)
    (C16_ancestors demo_made demo_loc), rfl, rfl⟩

end Syntree
