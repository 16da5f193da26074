import Verif.Model.Iter

/-! # What an iteration costs in total -/

namespace Syntree

/-- Calling `next` again and again from state `s` returns the items of `l`, then `None`, and the
calls (with the one that returns `None`) together take `n` steps, if a call in state `s` takes
`cost s`. -/
inductive Spends {σ β : Type} (next : NextFn σ β) (cost : σ → Nat) : σ → List β → Nat → Prop where
  | done {s s' : σ} : next s = (s', .none) → Spends next cost s [] (cost s)
  | item {s s' : σ} {x : β} {l : List β} {n : Nat} :
      next s = (s', .some x) → Spends next cost s' l n → Spends next cost s (x :: l) (cost s + n)

/-- A loop that is allowed `m` rounds gives the result `loop m`, which says whether it was cut
short. It takes `n` rounds if `n` rounds are enough and fewer are not. -/
def Rounds {β : Type} (loop : Nat → β) (cut : β → Prop) (n : Nat) : Prop :=
  ¬ cut (loop n) ∧ ∀ m, m < n → cut (loop m)

end Syntree
