import Verif.Proof.FaultEdit
import Verif.Proof.Tries
import Verif.Proof.Made
import Verif.Props.Edit

/-!
# C63 – C66: storage that can fail

The statements use `succeeded`, `goodResults`, `Refuses`, `StorageFailed` of `Spec/Fault.lean`.
`FSys.run fl ft` is a history of calls on a builder whose storage fails when `ft` says so; `Sys.run
fl` is a history with storage that never fails. `FSys.plain` is the builder and the checkpoints,
without the count of attempts.
-/

namespace Syntree

variable {α : Type} {fl : Flavor} {ft : Faults}

/-! ## C63 -/

/-- C63: if no call of a history reports a failure of the storage, all results and the builder are
those of storage that never fails. -/
theorem C63_no_failure_no_difference (fl : Flavor) (ft : Faults) (ops : List (Op α))
    (hne : ∀ o ∈ (FSys.init.run fl ft ops).2, o ≠ .error .flavor) :
    (FSys.init.run fl ft ops).1.plain = (Sys.init.run fl ops).1 ∧
      (FSys.init.run fl ft ops).2 = (Sys.init.run fl ops).2.map (·.mapError .base) :=
  FSys.run_conserves FSys.init ops hne

/-- Room for four nodes and two index entries is enough for this history. -/
example : ((FSys.init : FSys Nat).run Flavor.default (.capacity 4 2)
    [.checkpoint, .open 1, .token 2 3, .token 3 1, .close, .closeAt 0 4]).1.plain =
    (Sys.init.run Flavor.default
      [.checkpoint, .open 1, .token 2 3, .token 3 1, .close, .closeAt 0 4]).1 :=
  (C63_no_failure_no_difference Flavor.default (.capacity 4 2) _ (by
    simp only [show ((FSys.init : FSys Nat).run Flavor.default (.capacity 4 2)
      [.checkpoint, .open 1, .token 2 3, .token 3 1, .close, .closeAt 0 4]).2 =
      [.ok (.handle 0), .ok (.id 0), .ok (.id 1), .ok (.id 2), .ok .unit, .ok (.id 3)] from rfl]
    simp)).1

theorem FSys.run_take (s : FSys α) (ops : List (Op α)) (k : Nat) :
    (s.run fl ft (ops.take k)).2 = (s.run fl ft ops).2.take k := by
  induction ops generalizing s k with
  | nil => simp [FSys.run]
  | cons op ops ih =>
    cases k with
    | zero => simp [FSys.run]
    | succ k => simp only [List.take_succ_cons, FSys.run, ih]

theorem Sys.run_take (s : Sys α) (ops : List (Op α)) (k : Nat) :
    (s.run fl (ops.take k)).2 = (s.run fl ops).2.take k := by
  induction ops generalizing s k with
  | nil => simp [Sys.run]
  | cons op ops ih =>
    cases k with
    | zero => simp [Sys.run]
    | succ k => simp only [List.take_succ_cons, Sys.run, ih]

/-- C63, up to the first failure: if the storage does not fail in the first `k` calls, their results
are those of storage that never fails. -/
theorem C63_before_first_failure (fl : Flavor) (ft : Faults) (ops : List (Op α)) (k : Nat)
    (hne : ∀ o ∈ (FSys.init.run fl ft ops).2.take k, o ≠ .error .flavor) :
    (FSys.init.run fl ft (ops.take k)).1.plain = (Sys.init.run fl (ops.take k)).1 ∧
    (FSys.init.run fl ft ops).2.take k = ((Sys.init.run fl ops).2.take k).map (·.mapError .base) := by
  rw [← FSys.run_take] at hne
  obtain ⟨h1, h2⟩ := C63_no_failure_no_difference fl ft _ hne
  rw [FSys.run_take, Sys.run_take] at h2
  exact ⟨h1, h2⟩

example : ((FSys.init : FSys Nat).run Flavor.default (.capacity 2 2)
      [.open 1, .token 2 3, .token 3 1, .close]).2.take 2 = [.ok (.id 0), .ok (.id 1)] :=
  (C63_before_first_failure Flavor.default (.capacity 2 2) [.open 1, .token 2 3, .token 3 1, .close] 2
    (by
      simp only [show ((FSys.init : FSys Nat).run Flavor.default (.capacity 2 2)
        [.open 1, .token 2 3, .token 3 1, .close]).2.take 2 = [.ok (.id 0), .ok (.id 1)] from rfl]
      simp)).2

/-- C63, when: on any builder, whatever happened to it before, a call reports a failure of the
storage exactly if it would add a node to the tree and the storage refuses the node, or would add an
index entry and the index refuses the entry. -/
theorem C63_fails_exactly (fl : Flavor) (ft : Faults) (s : FSys α) (op : Op α) :
    (s.step fl ft op).2 = .error .flavor ↔
      (s.plain.step fl op).1.b.tree.len = s.plain.b.tree.len + 1 ∧ Refuses fl ft s op :=
  s.fails_iff op

example : (FSys.step Flavor.default (.capacity 0 9) FSys.init (.open 1)).2 = .error .flavor :=
  (C63_fails_exactly Flavor.default (.capacity 0 9) FSys.init (.open 1)).2 ⟨rfl, .inl rfl⟩

/-- C63: which attempts there are. A new builder has made none. A call tries to store a node exactly if
it would add one, and then, if this was not refused, an index entry if it is one of the calls that add
one; failed attempts count. -/
theorem C63_attempts (fl : Flavor) (ft : Faults) (s : FSys α) (op : Op α) :
    (FSys.init : FSys α).f.tries = ⟨0, 0⟩ ∧
    ((s.plain.step fl op).1.b.tree.len ≠ s.f.b.tree.len + 1 →
      (s.step fl ft op).1.f.tries = s.f.tries) ∧
    ((s.plain.step fl op).1.b.tree.len = s.f.b.tree.len + 1 →
      (s.step fl ft op).1.f.tries.node = s.f.tries.node + 1 ∧
      (s.step fl ft op).1.f.tries.index = s.f.tries.index +
        if op.indexed fl = true ∧ ft.node s.f.tries.node s.f.b.tree.len = false then 1 else 0) := by
  have h := s.counted (fl := fl) (ft := ft) op
  unfold Counted at h
  simp only [Tree.len]
  refine ⟨rfl, fun hne => ?_, fun he => ?_⟩
  · rw [h, if_neg hne]
  · rw [h, if_pos he]
    simp only [Tries.after]
    cases op.indexed fl <;> simp

/-- The third attempt to store a node fails, the first index entry too. -/
example :
    let ft : Faults := ⟨fun k _ => k == 2, fun k _ => k == 0, fun _ => false⟩
    let r := (FSys.init : FSys Nat).run Flavor.default ft
      [.open 1, .token 2 1, .token 3 1, .tokenWith 4 ⟨1, 2⟩, .tokenEmpty 5]
    r.2 = [.ok (.id 0), .error .flavor, .error .flavor, .ok (.id 2), .ok (.id 3)] ∧
      r.1.f.tries = ⟨5, 2⟩ := ⟨rfl, rfl⟩

/-- C63: storage that never fails makes no difference. -/
theorem C63_reliable_storage (fl : Flavor) (ops : List (Op α)) :
    (FSys.init.run fl .none ops).1.plain = (Sys.init.run fl ops).1 ∧
      (FSys.init.run fl .none ops).2 = (Sys.init.run fl ops).2.map (·.mapError .base) := by
  refine C63_no_failure_no_difference fl .none ops ?_
  have : ∀ (s : FSys α) (ops : List (Op α)), ∀ o ∈ (s.run fl .none ops).2, o ≠ .error .flavor := by
    intro s ops
    induction ops generalizing s with
    | nil => simp [FSys.run]
    | cons op ops ih =>
      intro o ho
      simp only [FSys.run, List.mem_cons] at ho
      rcases ho with rfl | ho
      · intro he
        have := ((s.fails_iff op).1 he).2
        simp [Refuses, Faults.none] at this
      · exact ih _ o ho
  exact this _ ops

example : ((FSys.init : FSys Nat).run Flavor.default .none [.open 1, .token 2 3, .close]).2 =
    [.ok (.id 0), .ok (.id 1), .ok .unit] := (C63_reliable_storage _ _).2

/-- C63: `close`, `checkpoint` and `set_cursor` never report a failure of the storage. -/
theorem C63_no_storage_needed (fl : Flavor) (ft : Faults) (s : FSys α) (op : Op α)
    (h : op = .close ∨ op = .checkpoint ∨ ∃ i, op = .setCursor i) :
    (s.step fl ft op).2 ≠ .error .flavor := by
  intro he
  have := ((s.fails_iff op).1 he).1
  rcases h with rfl | rfl | ⟨i, rfl⟩
  · have := close_len s.f.b
    simp only [Sys.step, Sys.lift, FSys.plain, Tree.len] at *
    omega
  · rw [checkpoint_step_tree] at this
    simp [FSys.plain] at this
  · simp [Sys.step, FSys.plain, Builder.setCursor] at this

example (s : FSys Nat) : (s.step Flavor.default ⟨fun _ _ => true, fun _ _ => true, fun _ => true⟩
    .close).2 ≠ .error .flavor := C63_no_storage_needed _ _ _ _ (.inl rfl)

/-! ## C64 -/

/-- C64, in part: what a call that fails because the storage fails leaves behind, on any builder,
whatever happened to it before. (The full statement would be: the builder is unchanged. It is false,
see below.) -/
theorem C64_failed_call_partial (fl : Flavor) (ft : Faults) (s : FSys α) (op : Op α)
    (h : (s.step fl ft op).2 = .error .flavor) :
    StorageFailed fl s.plain op (s.step fl ft op).1.plain :=
  (FSys.step_flavor h).1

example : StorageFailed Flavor.default (FSys.init : FSys Nat).plain (.open 1)
    (FSys.step Flavor.default (.capacity 0 9) FSys.init (.open 1)).1.plain :=
  C64_failed_call_partial _ _ _ _ rfl

/-- C64, in part: a failing `open`, `open_with` or `token_empty` leaves the tree, the cursor, the
open nodes and the checkpoints as they were. -/
theorem C64_open_keeps_tree_partial (fl : Flavor) (ft : Faults) (s : FSys α) (op : Op α)
    (hop : (∃ d, op = .open d) ∨ (∃ d sp, op = .openWith d sp) ∨ ∃ d, op = .tokenEmpty d)
    (h : (s.step fl ft op).2 = .error .flavor) :
    let b' := (s.step fl ft op).1.f.b
    b'.tree = s.f.b.tree ∧ b'.cursor = s.f.b.cursor ∧ b'.parent = s.f.b.parent ∧
      (s.step fl ft op).1.cells = s.cells ∧ (s.step fl ft op).1.handles = s.handles := by
  have hs := (FSys.step_flavor h).1
  have hb : (s.step fl ft op).1.f.b = (s.step fl ft op).1.plain.b := rfl
  have hc : (s.step fl ft op).1.cells = (s.step fl ft op).1.plain.cells := rfl
  have hh : (s.step fl ft op).1.handles = (s.step fl ft op).1.plain.handles := rfl
  simp only [hb, hc, hh]
  generalize (s.step fl ft op).1.plain = s' at hs
  rcases hop with ⟨d, rfl⟩ | ⟨d, sp, rfl⟩ | ⟨d, rfl⟩ <;>
  · cases hs with
    | node => exact ⟨rfl, rfl, rfl, rfl, rfl⟩
    | wrapper op i hc => simp [Op.isCloseAt] at hc

example := C64_open_keeps_tree_partial Flavor.default (.capacity 0 9) (FSys.init : FSys Nat)
  (.open 1) (.inl ⟨1, rfl⟩) rfl

/-- Node storage that fails once, at attempt number `k`. -/
def failOnce (k : Nat) : Faults := ⟨fun i _ => i == k, fun _ _ => false, fun _ => false⟩

/-- C64 is false: the storage fails once, for the second of three tokens. The next token is stored,
but not linked to the first one: the tree has two nodes, of which the walk shows one. -/
theorem C64_fails_next_node_is_lost :
    let r := (FSys.init : FSys Nat).run Flavor.default (failOnce 1) [.token 1 1, .token 2 1, .token 3 1]
    r.2 = [.ok (.id 0), .error .flavor, .ok (.id 1)] ∧ r.1.f.b.tree.len = 2 ∧
      Yields (Walk.next r.1.f.b.tree.nodes) r.1.f.b.tree.walk [0] ∧
      r.1.f.b.tree.span = ⟨0, 3⟩ := by
  refine ⟨rfl, rfl, ?_, rfl⟩
  exact .item (s' := ⟨none, -1⟩) rfl (.done (s' := ⟨none, -1⟩) rfl)

/-- C64 is false for `close_at`: with room for one node, a failing `close_at` makes the whole tree
disappear: there is a node, but no first node, and the walk is empty. -/
theorem C64_fails_close_at :
    let r := (FSys.init : FSys Nat).run Flavor.default (.capacity 1 9)
      [.checkpoint, .token 1 1, .closeAt 0 2]
    r.2 = [.ok (.handle 0), .ok (.id 0), .error .flavor] ∧
      r.1.f.b.build = .ok r.1.f.b.tree ∧ r.1.f.b.tree.len = 1 ∧ r.1.f.b.tree.firstNode = none ∧
      Yields (Walk.next r.1.f.b.tree.nodes) r.1.f.b.tree.walk [] := by
  refine ⟨rfl, rfl, rfl, rfl, ?_⟩
  exact .done (s' := ⟨none, 0⟩) rfl

/-- The history of `C64_fails_cycle`. -/
def cycleOps : List (Op Nat) :=
  [.checkpoint, .open 1, .checkpoint, .token 2 1, .closeAt 1 3, .close, .closeAt 0 4]

/-- C64 is false for `close_at` in the worst way: the storage fails once, in a `close_at` inside of
a node. All later calls succeed, and the tree can be built, but its links go in a circle: the first
child of node 0 is node 2, the first child of node 2 is node 0, and a walk never ends. -/
theorem C64_fails_cycle :
    let r := (FSys.init : FSys Nat).run Flavor.default (failOnce 2) cycleOps
    r.2 = [.ok (.handle 0), .ok (.id 0), .ok (.handle 1), .ok (.id 1), .error .flavor, .ok .unit,
      .ok (.id 2)] ∧
    r.1.f.b.build = .ok r.1.f.b.tree ∧
    nodeFirst r.1.f.b.tree.nodes 0 = some 2 ∧ nodeFirst r.1.f.b.tree.nodes 2 = some 0 ∧
    ¬ ∃ l, Yields (Walk.next r.1.f.b.tree.nodes) r.1.f.b.tree.walk l := by
  refine ⟨rfl, rfl, rfl, rfl, ?_⟩
  rintro ⟨l, hl⟩
  generalize hn : ((FSys.init : FSys Nat).run Flavor.default (failOnce 2) cycleOps).1.f.b.tree.nodes =
    nodes at hl
  have hw : ((FSys.init : FSys Nat).run Flavor.default (failOnce 2) cycleOps).1.f.b.tree.walk =
    ⟨some (2, .next), 0⟩ := rfl
  rw [hw] at hl
  have h0 : ∃ l0, nodes[0]? = some l0 ∧ l0.first = some 2 := by subst hn; exact ⟨_, rfl, rfl⟩
  have h2 : ∃ l2, nodes[2]? = some l2 ∧ l2.first = some 0 := by subst hn; exact ⟨_, rfl, rfl⟩
  obtain ⟨l0, h0, f0⟩ := h0
  obtain ⟨l2, h2, f2⟩ := h2
  have key : ∀ (s : WalkEvents) (l : List Nat), Yields (Walk.next nodes) s l →
      ∀ (x : Nat) (e : Event), s.node = some (x, e) → e ≠ .up → x = 0 ∨ x = 2 → False := by
    intro s l hy
    induction hy with
    | @done s s' h =>
      intro x e hs he hx
      obtain ⟨n, d⟩ := s
      simp only at hs
      subst hs
      rcases hx with rfl | rfl
      · cases e <;> simp [Walk.next, Walk.nextLoop, WalkEvents.next, h0, he] at h
        exact he rfl
      · cases e <;> simp [Walk.next, Walk.nextLoop, WalkEvents.next, h2, he] at h
        exact he rfl
    | @item s s' y l h _ ih =>
      intro x e hs he hx
      obtain ⟨n, d⟩ := s
      simp only at hs
      subst hs
      rcases hx with rfl | rfl
      · refine ih 2 .down ?_ (by decide) (.inr rfl)
        cases e <;> simp [Walk.next, Walk.nextLoop, WalkEvents.next, WalkEvents.step, h0, f0] at h
        · rw [← h.1]
        · rw [← h.1]
        · exact absurd rfl he
      · refine ih 0 .down ?_ (by decide) (.inl rfl)
        cases e <;> simp [Walk.next, Walk.nextLoop, WalkEvents.next, WalkEvents.step, h2, f2] at h
        · rw [← h.1]
        · rw [← h.1]
        · exact absurd rfl he
  exact key _ _ hl 2 .next rfl (by decide) (.inr rfl)

/-! ## C65 -/

/-- C65, in part: storage of fixed capacity, `n` nodes and at least as many index entries. For every
history in which the storage does not fail in a `close_at` or `close_at_with`: the calls that
succeed are exactly as if the others had not been made. They return the same, and the nodes, their
links, the index, the open nodes and the checkpoints are the same. (The span of the whole tree and
the cursor may differ.) -/
theorem C65_fixed_capacity_partial (fl : Flavor) (n m : Nat) (hnm : n ≤ m) (ops : List (Op α))
    (hca : ∀ x ∈ ops.zip (FSys.init.run fl (.capacity n m) ops).2,
      x.1.isCloseAt = true → x.2 ≠ .error .flavor) :
    let r := FSys.init.run fl (.capacity n m) ops
    let p := Sys.init.run fl (succeeded ops r.2)
    p.2 = goodResults r.2 ∧
    r.1.f.b.tree.nodes = p.1.b.tree.nodes ∧ r.1.f.b.tree.indexes = p.1.b.tree.indexes ∧
    r.1.f.b.tree.first = p.1.b.tree.first ∧ r.1.f.b.tree.last = p.1.b.tree.last ∧
    r.1.f.b.parent = p.1.b.parent ∧ r.1.cells = p.1.cells ∧ r.1.handles = p.1.handles ∧
    r.1.f.b.tree.len ≤ n := by
  obtain ⟨h1, h2⟩ := Filled.run hnm ops (Filled.init fl n) hca
  exact ⟨h2, h1.core.nodes, h1.core.indexes, h1.core.first, h1.core.last, h1.core.parent,
    h1.core.cells, h1.core.handles, h1.cap⟩

/-- Room for two nodes; the third and fourth call fail. -/
example := C65_fixed_capacity_partial Flavor.default 2 2 (by decide)
  [.open 1, .token 2 3, .token 3 1, .open 4, .close] (by
    simp only [show ((FSys.init : FSys Nat).run Flavor.default (.capacity 2 2)
      [.open 1, .token 2 3, .token 3 1, .open 4, .close]).2 =
      [.ok (.id 0), .ok (.id 1), .error .flavor, .error .flavor, .ok .unit] from rfl]
    simp [Op.isCloseAt])

/-- C65, when: with storage of fixed capacity a call reports a failure exactly if it would add a node
and there are `n` nodes. -/
theorem C65_fails_when_full_partial (fl : Flavor) (n m : Nat) (hnm : n ≤ m) (ops : List (Op α))
    (hca : ∀ x ∈ ops.zip (FSys.init.run fl (.capacity n m) ops).2,
      x.1.isCloseAt = true → x.2 ≠ .error .flavor) (op : Op α) :
    let s := (FSys.init.run fl (.capacity n m) ops).1
    (s.step fl (.capacity n m) op).2 = .error .flavor ↔
      (s.plain.step fl op).1.b.tree.len = s.plain.b.tree.len + 1 ∧ s.plain.b.tree.len = n :=
  (Filled.run hnm ops (Filled.init fl n) hca).1.flavor_iff hnm op

example := C65_fails_when_full_partial Flavor.default 2 2 (by decide)
  ([] : List (Op Nat)) (by simp) (.open 1)

/-- C65 needs that no `close_at` fails: here the only failing call is a `close_at`, and the nodes are
not those of the calls that succeeded. -/
theorem C65_fails_after_close_at :
    let ops : List (Op Nat) := [.checkpoint, .token 1 1, .closeAt 0 2]
    let r := FSys.init.run Flavor.default (.capacity 1 1) ops
    succeeded ops r.2 = [.checkpoint, .token 1 1] ∧
      r.1.f.b.tree.first = some 1 ∧
      (Sys.init.run Flavor.default (succeeded ops r.2)).1.b.tree.first = some 0 := ⟨rfl, rfl, rfl⟩

/-- C65 is about nodes, not about the span of the tree: a token that does not fit is counted in it
all the same. -/
theorem C65_fails_span :
    let ops : List (Op Nat) := [.token 1 1, .token 2 5]
    let r := FSys.init.run Flavor.default (.capacity 1 1) ops
    r.2 = [.ok (.id 0), .error .flavor] ∧ r.1.f.b.tree.span = ⟨0, 6⟩ ∧
      (Sys.init.run Flavor.default (succeeded ops r.2)).1.b.tree.span = ⟨0, 1⟩ := ⟨rfl, rfl, rfl⟩

/-! ## C66 -/

/-- C66: `modify` with failing storage, on any tree and any change set, fails with the error of the
storage or does what it does with storage that never fails. (The input is not touched either way: it
is borrowed.) -/
theorem C66_modify_conserves (fl : Flavor) (ft : Faults) (capacity : Nat) (c : ChangeSet)
    (t : Tree α) :
    c.modifyF fl ft capacity t = .error .flavor ∨
    c.modifyF fl ft capacity t = (c.modify fl t).mapError .base :=
  modify_conserves capacity c t

/-- C66: with storage of fixed capacity, `modify` succeeds exactly if its result fits, however many
nodes the input had. -/
theorem C66_modify_fits (fl : Flavor) (n m capacity : Nat) (c : ChangeSet) (t t' : Tree α)
    (h : c.modify fl t = .ok t') :
    c.modifyF fl (.capacity n m) capacity t =
      if t'.nodes.length ≤ n ∧ t'.indexes.length ≤ m then .ok t' else .error .flavor :=
  modify_fits capacity h

/-- Removing node 2 of a tree with six nodes leaves four, three of them tokens. -/
example (t' : Tree Nat) (h : (ChangeSet.mk [2]).modify Flavor.default plainTree = .ok t')
    (h1 : t'.nodes.length = 4) (h2 : t'.indexes.length = 3) :
    (ChangeSet.mk [2]).modifyF Flavor.default (.capacity 4 3) 6 plainTree = .ok t' ∧
    (ChangeSet.mk [2]).modifyF Flavor.default (.capacity 3 3) 6 plainTree = .error .flavor ∧
    (ChangeSet.mk [2]).modifyF Flavor.default (.capacity 4 2) 6 plainTree = .error .flavor := by
  refine ⟨?_, ?_, ?_⟩ <;> rw [C66_modify_fits _ _ _ _ _ _ _ h, h1, h2] <;> simp

/-- The hypotheses are met. -/
example : ((ChangeSet.mk [2]).modify Flavor.default plainTree).toOption.map
    (fun t => (t.nodes.length, t.indexes.length)) = some (4, 3) := rfl

end Syntree
