import Verif.Model.Pointer

/-!
# Nodes as the code has them: two addresses

In the other models a node is its position. In the code it is a reference to its links together with
the slice that holds them, and `Node::id` computes the position from the two addresses. The slice
comes from `Storage`, a safe trait with `Deref`: handwritten storage decides at every call of `deref`
which slice it hands out. `size` is the size of an element, `usz` the number of bits of a `usize`,
`w` that of the pointers.
-/

namespace Syntree

/-- A slice `&[Links<..>]`: its address and its length. -/
structure SliceAt where
  base : Nat
  len : Nat
  deriving DecidableEq

/-- `src/node/node_impl.rs:24-31` — `Node`: the address of `links`, and `tree`. -/
structure NodeAt where
  current : Nat
  tree : SliceAt
  deriving DecidableEq

/-- `<[T]>::get(id.get())` (of `core`): the address of the element. -/
def SliceAt.get {w : Nat} (usz size : Nat) (s : SliceAt) (id : RawPtr w) : Option Nat :=
  if id.get usz < s.len then some (s.base + id.get usz * size) else none

/-- `src/tree.rs:299-302` — `Tree::get`. The storage is dereferenced twice: `s` is the slice of
`self.tree.get(..)`, `s'` the one of `&self.tree` in the next line. `Tree::first`, `Tree::last`,
`node_with_range` and `node_with_span` get their node in this way. -/
def treeGetAt {w : Nat} (usz size : Nat) (s s' : SliceAt) (id : RawPtr w) : Option NodeAt :=
  match s.get usz size id with
  | none => none
  | some cur => some ⟨cur, s'⟩

/-- `src/node/node_impl.rs:469-476` — `Node::node_at`. -/
def NodeAt.nodeAt {w : Nat} (usz size : Nat) (n : NodeAt) (id : RawPtr w) : Option NodeAt :=
  match n.tree.get usz size id with
  | none => none
  | some cur => some ⟨cur, n.tree⟩

/-- `src/node/node_impl.rs:508-518` — `Node::id`, for any two addresses. Without overflow checks the
subtraction wraps. -/
def NodeAt.id (w usz size : Nat) (n : NodeAt) : RawPtr w :=
  RawPtr.newUnchecked w ((n.current + 2 ^ usz - n.tree.base) % 2 ^ usz / size)

end Syntree
