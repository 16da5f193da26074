import Verif.Model.Hint

/-! # What a size hint promises -/

namespace Syntree

/-- From the state `s` the items `l` can be taken, each from one of the ends `ends` (`next`, and
`next_back` if there is one), in any order of the ends. -/
inductive Taken {σ β : Type} (ends : List (NextFn σ β)) : σ → List β → σ → Prop where
  | refl (s : σ) : Taken ends s [] s
  | step {s s' s'' : σ} {x : β} {l : List β} {next : NextFn σ β} : next ∈ ends →
      next s = (s', .some x) → Taken ends s' l s'' → Taken ends s (x :: l) s''

/-- The promise of `Iterator::size_hint`: no more items can be taken than the upper bound says, and
the iterator does not end before as many as the lower bound says have been taken. -/
def HintHolds {σ β : Type} (ends : List (NextFn σ β)) (hint : σ → SizeHint) : Prop :=
  ∀ s l s', Taken ends s l s' →
    (∀ upper, (hint s).2 = some upper → l.length ≤ upper) ∧
    ((∃ next ∈ ends, ∃ s'', next s' = (s'', .none)) → (hint s).1 ≤ l.length)

end Syntree
