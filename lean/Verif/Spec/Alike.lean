import Verif.Spec.Edit

/-! # Vocabulary about trees that are equal -/

namespace Syntree

/-- Two answers of a navigation method on two trees that are walked in the orders `w` and `w'`: both are
nothing, or both are the node at the same position of the walk. -/
def SamePlace (w w' : List Nat) (a b : Option Nat) : Prop :=
  (a = none ∧ b = none) ∨ ∃ (p i i' : Nat), a = some i ∧ b = some i' ∧ w[p]? = some i ∧ w'[p]? = some i'

/-- The same for the answer of a range query. -/
def SameFound (w w' : List Nat) (a b : Got Nat) : Prop :=
  (a = .none ∧ b = .none) ∨
    ∃ (p i i' : Nat), a = .some i ∧ b = .some i' ∧ w[p]? = some i ∧ w'[p]? = some i'

end Syntree
