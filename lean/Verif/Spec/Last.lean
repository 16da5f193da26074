import Verif.Spec.Forest

/-! # What `last()` returns -/

namespace Syntree

variable {α : Type}

/-- The children `k` were there before the node with the id `i`: it was put around them with
`close_at` (ids are handed out in increasing order). -/
def Forest.wrappedBy (i : Nat) : Forest (Lab α) → Bool
  | .nil => false
  | .cons y _ _ => decide (y.id < i)

/-- Which node is held to be the last of a run of siblings: the last one, unless it was put around
the nodes below it with `close_at`; then it is the one that was held to be the last of these. Except
that, below a node, wrapping the node that is held to be the last, and nothing else, is noticed. -/
def Forest.heldLast (root : Bool) : Forest (Lab α) → Option Nat
  | .nil => none
  | .cons x k .nil =>
    if k.wrappedBy x.id then
      if root = false ∧ k.heldLast root = k.topIds.head? then some x.id else k.heldLast root
    else some x.id
  | .cons _ _ (.cons y k r) => Forest.heldLast root (.cons y k r)

/-- What `last()` returns for a tree (`none`) or for the node with this id, the children being `k`:
a node made by `close_at` knows its last child. -/
def Forest.lastLink (k : Forest (Lab α)) : Option Nat → Option Nat
  | none => k.heldLast true
  | some i => if k.wrappedBy i then k.topIds.getLast? else k.heldLast false

/-- The node held to be the last is the last: it was not put around other nodes with `close_at`; or,
below a node, it was put around one node for which the same is true. -/
def Forest.lastSeen (root : Bool) : Forest (Lab α) → Bool
  | .nil => true
  | .cons x k .nil => ! k.wrappedBy x.id || (! root && k.width == 1 && k.lastSeen root)
  | .cons _ _ (.cons y k r) => Forest.lastSeen root (.cons y k r)

end Syntree
