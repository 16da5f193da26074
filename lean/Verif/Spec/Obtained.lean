import Verif.Model.World
import Verif.Model.Edit
import Verif.Spec.Forest
import Verif.Model.Node

/-! # All trees a program can get hold of -/

namespace Syntree

variable {α : Type}

/-- `Obtained t`: some program gets hold of the tree `t`. It may use any number of builders of any
flavors, clone them, pass any checkpoint to any builder any number of times (swallowed and foreign
ones included), carry on after errors, call `build`, and then edit the tree with `ChangeSet::modify`
and `Node::replace` any number of times. -/
inductive Obtained : Tree α → Prop
  | built {ops : List (WOp α)} {w : World α} {os : List (Option (Except Err Out))} {i : Nat}
      {fl : Flavor} {b : Builder α} {t : Tree α} : World.init.run ops = (w, os) →
      w.builders[i]? = some (fl, b) → b.build = .ok t → Obtained t
  | edited {t t' : Tree α} {fl : Flavor} {c : ChangeSet} :
      Obtained t → c.modify fl t = .ok t' → Obtained t'
  | replaced {t : Tree α} {i : Nat} {v : α} : Obtained t → Obtained (t.replace i v).1

/-- `F.Follows nodes`: `F` is what a client sees that goes from the first node of `F` through
`first()` and `next()` only: the first child of every node of `F` is what `first()` returns, the
sibling after it what `next()` returns, and values and spans are what `value()` and `span()`
return. -/
def Forest.Follows (nodes : Slice α) : Forest (Lab α) → Prop
  | .nil => True
  | .cons x kids right =>
    nodeValue nodes x.id = some x.data ∧ nodeSpan nodes x.id = some x.span ∧
    nodeFirst nodes x.id = (kids.tops.map (·.id)).head? ∧
    nodeNext nodes x.id = (right.tops.map (·.id)).head? ∧
    kids.Follows nodes ∧ right.Follows nodes

end Syntree
