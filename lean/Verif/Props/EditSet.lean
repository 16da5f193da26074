import Verif.Proof.EditSet
import Verif.Props.Reading

/-!
# C93: a change set is a set of ids

`ids.foldl ChangeSet.remove ChangeSet.new` is the change set after calling `remove` with these ids,
one after the other.
-/

namespace Syntree

variable {α : Type} {fl : Flavor} {t : Tree α}

/-- The change set after `remove` has been called with each of these ids in turn. -/
def removing (ids : List Nat) : ChangeSet := ids.foldl ChangeSet.remove ChangeSet.new

theorem mem_removing (ids : List Nat) (i : Nat) : i ∈ (removing ids).changes ↔ i ∈ ids := by
  have key : ∀ (ids : List Nat) (c : ChangeSet), i ∈ (ids.foldl ChangeSet.remove c).changes ↔
      i ∈ ids ∨ i ∈ c.changes := by
    intro ids
    induction ids with
    | nil => intro c; simp
    | cons a l ih =>
      intro c
      rw [List.foldl_cons, ih]
      simp only [ChangeSet.remove, List.mem_cons]
      constructor
      · rintro (h | rfl | h)
        · exact .inl (.inr h)
        · exact .inl (.inl rfl)
        · exact .inr h
      · rintro ((rfl | h) | h)
        · exact .inr (.inl rfl)
        · exact .inl h
        · exact .inr (.inr h)
  simpa [removing, ChangeSet.new] using key ids ChangeSet.new

/-- C93: whatever the tree, neither the order of the calls of `remove` matters nor if an id has been
registered more than once: `modify` returns the same, success or failure. Ids that are too large for
a pointer of the flavor do not matter either. -/
theorem C93_set_of_ids (h : Obtained t) {ids ids' : List Nat}
    (hS : ∀ i, i < 2 ^ fl.width - 1 → (i ∈ ids ↔ i ∈ ids')) :
    (removing ids).modify fl t = (removing ids').modify fl t := by
  have h1 := modify_any (fl := fl) (removing ids) t (h.modify_ends _)
  have h2 := modify_any (fl := fl) (removing ids') t (h.modify_ends _)
  rw [h1 (((removing ids').changes.length + 1) * (t.nodes.length + 1)),
    h2 (((removing ids).changes.length + 1) * (t.nodes.length + 1)),
    loop_same (S' := (removing ids').changes) (fun i hi => by
      rw [mem_removing, mem_removing]; exact hS i hi)]
  have e : ∀ a b : Nat, a + 1 + b = b + 1 + a := by intro a b; omega
  rw [e]

example : (removing [3, 1, 3]).modify Flavor.default wildTree =
    (removing [1, 3]).modify Flavor.default wildTree :=
  C93_set_of_ids wild_obtained (fun i _ => by simp; omega)

/-- C93: if `modify` succeeds, then only the ids up to the number of nodes of its *result* matter:
any further ids may be registered, or left out. -/
theorem C93_only_reached_ids (h : Obtained t) {ids ids' : List Nat} {t' : Tree α}
    (hm : (removing ids).modify fl t = .ok t') (hS : ∀ i, i ≤ t'.len → (i ∈ ids ↔ i ∈ ids')) :
    (removing ids').modify fl t = .ok t' := by
  have h1 := modify_any (fl := fl) (removing ids) t (h.modify_ends _)
    (((removing ids').changes.length + 1) * (t.nodes.length + 1))
  have h2 := modify_any (fl := fl) (removing ids') t (h.modify_ends _)
    (((removing ids).changes.length + 1) * (t.nodes.length + 1))
  rw [hm] at h1
  have e : ∀ a b : Nat, a + 1 + b = b + 1 + a := by intro a b; omega
  rw [e] at h1
  rw [h2]
  generalize ((removing ids').changes.length + 1) * (t.nodes.length + 1) + 1 +
    ((removing ids).changes.length + 1) * (t.nodes.length + 1) = fuel at h1 ⊢
  cases hl : ModState.loop fl (removing ids).changes t.nodes fuel (modStart t) with
  | error x => rw [hl] at h1; cases h1
  | ok st =>
    rw [hl] at h1
    have ht : t' = { st.output with span := { st.output.span with stop := st.cursor } } := by
      simpa using h1
    rw [loop_agree (S' := (removing ids').changes) (fun i hi => by
      rw [mem_removing, mem_removing]
      exact hS i (by rw [ht]; exact hi)) fuel _ hl, ht]

/-- The copy of the witness has 6 nodes, so that registering the id 7 makes no difference. -/
example : ∃ t', (removing []).modify Flavor.default wildTree = .ok t' ∧
    (removing [7]).modify Flavor.default wildTree = .ok t' := by
  have : ∃ t', (removing []).modify Flavor.default wildTree = .ok t' ∧ t'.len = 6 := ⟨_, rfl, rfl⟩
  obtain ⟨t', h1, h2⟩ := this
  exact ⟨t', h1, C93_only_reached_ids wild_obtained h1 (fun i hi => by simp; omega)⟩

def twoRootsOps : List (WOp Nat) :=
  [.new Flavor.default, .call 0 (.tokenEmpty 1), .call 0 (.tokenEmpty 2)]

def twoRootsTree : Tree Nat :=
  ⟨[⟨1, ⟨0, 0⟩, none, none, some 1, none, none⟩, ⟨2, ⟨0, 0⟩, none, some 0, none, none, none⟩],
    ⟨0, 0⟩, [], some 0, some 1⟩

def oneRootTree : Tree Nat :=
  ⟨[⟨1, ⟨0, 0⟩, none, none, none, none, none⟩], ⟨0, 0⟩, [], some 0, some 0⟩

theorem twoRoots_obtained : Obtained twoRootsTree := by
  have h : ((World.init : World Nat).run twoRootsOps).1.builders[0]? =
      some (Flavor.default, ⟨twoRootsTree, none, none, some 1, 0⟩) := by decide +kernel
  exact .built (ops := twoRootsOps) (i := 0) rfl h rfl

/-- C93: the bound is sharp: the id that equals the number of nodes of the result can matter. Here
the second of two roots is removed by registering the id 1, and the result has one node. -/
theorem C93_bound_sharp : ∃ t t' : Tree Nat, Obtained t ∧
    (removing [1]).modify Flavor.default t = .ok t' ∧ t'.len = 1 ∧
    (removing []).modify Flavor.default t ≠ .ok t' := by
  refine ⟨twoRootsTree, oneRootTree, twoRoots_obtained, rfl, rfl, ?_⟩
  have h : (removing []).modify Flavor.default twoRootsTree = .ok twoRootsTree := rfl
  rw [h]
  intro e
  cases e

end Syntree
