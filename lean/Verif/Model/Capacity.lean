import Verif.Model.Builder
import Verif.Model.Edit

/-!
# Capacity

How much room the storage of the nodes has. `alloc::vec::Vec` (`src/flavor.rs:30-50`) is external; the
model takes any capacities that keep to its documentation. The capacity has no influence on anything
else, so it is followed beside the other models. Capacity of the index is not modelled.
-/

namespace Syntree

variable {α : Type}

/-- What the documentation of `Vec` says of the capacity (for elements with a size, and links have
one). `withCap n` is the capacity of `Vec::with_capacity(n)`, `cloned n` that of the clone of a vector
with `n` elements, `grown cap` that of a vector which had the capacity `cap`, was full, and to which
one element has been pushed. A vector that is not full is not reallocated by `push`. `Vec::new()` has
the capacity zero. -/
structure VecCaps where
  withCap : Nat → Nat
  cloned : Nat → Nat
  grown : Nat → Nat
  withCap_ge : ∀ n, n ≤ withCap n
  cloned_ge : ∀ n, n ≤ cloned n
  grown_gt : ∀ n, n < grown n

/-- `src/flavor.rs:46-49` — `Vec::push` on a vector of `len` elements: its capacity afterwards. -/
def VecCaps.push (v : VecCaps) (cap len : Nat) : Nat := if len < cap then cap else v.grown cap

/-- The capacity of the nodes of a builder after one call, if it was `cap` before. The only function
called on the storage that can change it is `push` (`src/tree.rs:252-254`), from `insert`
(`src/builder.rs:975-1014`) or the end of `close_at` (`src/builder.rs:796`, `src/builder.rs:903`), and
a call never does both (`Sys.step_len_le_succ`). -/
def Sys.capStep (v : VecCaps) (fl : Flavor) (s : Sys α) (cap : Nat) (op : Op α) : Nat :=
  if (s.step fl op).1.b.tree.len = s.b.tree.len then cap else v.push cap s.b.tree.len

/-- The same for a whole history. A new builder has `Storage::EMPTY` (`src/tree.rs:52-60`,
`src/flavor.rs:33`), so histories start with the capacity zero. -/
def Sys.capRun (v : VecCaps) (fl : Flavor) : Sys α → Nat → List (Op α) → Nat
  | _, cap, [] => cap
  | s, cap, op :: ops => Sys.capRun v fl (s.step fl op).1 (s.capStep v fl cap op) ops

/-- The number of elements moved to new memory by the calls of a history. -/
def Sys.moved (v : VecCaps) (fl : Flavor) : Sys α → Nat → List (Op α) → Nat
  | _, _, [] => 0
  | s, cap, op :: ops =>
    (if s.capStep v fl cap op = cap then 0 else s.b.tree.len) +
      Sys.moved v fl (s.step fl op).1 (s.capStep v fl cap op) ops

/-- `src/edit.rs:190-266` — the main loop of `modify` (model: `ModState.loop`): the capacity of the
output at the end of it, if it ends well. -/
def ModState.capLoop (v : VecCaps) (fl : Flavor) (changes : List Nat) (nodes : Slice α) :
    Nat → ModState α → Nat → Nat
  | 0, _, cap => cap
  | fuel + 1, st, cap =>
    match st.current with
    | none => cap
    | some (node, first) =>
      match ptrNew fl.width st.output.len with
      | none => cap
      | some nodeId =>
        if nodeId ∈ changes then
          match st.refactor.skipSubtree nodes node first with
          | (refactor, none) =>
            ModState.capLoop v fl changes nodes fuel
              { st with refactor := refactor, current := none } cap
          | (refactor, some (node, first)) =>
            match ModState.emit fl nodes { st with refactor := refactor } nodeId node first with
            | .error _ => cap
            | .ok st' =>
              ModState.capLoop v fl changes nodes fuel st' (v.push cap st.output.len)
        else
          match ModState.emit fl nodes st nodeId node first with
          | .error _ => cap
          | .ok st' => ModState.capLoop v fl changes nodes fuel st' (v.push cap st.output.len)

/-- `src/edit.rs:177-270` — `ChangeSet::modify` (model: `ChangeSet.modify`) of a tree with the
capacity `cap`: the capacity of the result. The output starts with
`Tree::with_capacity(tree.capacity())` (`src/edit.rs:178`, `src/tree.rs:64-72`). -/
def ChangeSet.capModify (v : VecCaps) (fl : Flavor) (c : ChangeSet) (t : Tree α) (cap : Nat) : Nat :=
  ModState.capLoop v fl c.changes t.nodes ((c.changes.length + 1) * (t.nodes.length + 1) + 1)
    ⟨Tree.empty, ⟨[], none⟩, 0, t.firstNode.map (·, false)⟩ (v.withCap cap)

end Syntree
