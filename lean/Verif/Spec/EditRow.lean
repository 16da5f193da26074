import Verif.Model.Edit
import Verif.Spec.Edit

/-! # Vocabulary about removing one node after the other -/

namespace Syntree

variable {α : Type}

/-- The elements that satisfy `p` and are not below another one that does, in document order. -/
def Forest.marked {β : Type} (p : β → Bool) : Forest β → List β
  | .nil => []
  | .cons x k r => if p x then x :: r.marked p else k.marked p ++ r.marked p

/-- No element that satisfies `p` and is not below another one that does is the last child of its
parent. -/
def Forest.KeepsLast {β : Type} (p : β → Bool) (F : Forest β) : Prop :=
  ∀ anc left x kids right, Forest.Loc F anc left x kids right → (∀ a ∈ anc, p a = false) →
    p x = true → anc = [] ∨ right ≠ .nil

/-- A client that removes one node after the other: a change set of its own for each id, applied to the
tree returned for the one before. -/
def removeEach (fl : Flavor) : List Nat → Tree α → Except Err (Tree α)
  | [], t => .ok t
  | i :: l, t =>
    match (ChangeSet.new.remove i).modify fl t with
    | .error e => .error e
    | .ok t' => removeEach fl l t'

end Syntree
