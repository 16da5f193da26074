import Verif.Spec.Forest
import Verif.Spec.Built

/-! # Vocabulary about comparing trees -/

namespace Syntree

variable {α : Type} {μ : Type}

/-- A node as it is listed by a walk with depths: depth, value and span. -/
structure Row (α : Type) where
  depth : Int
  data : α
  span : Span
  deriving DecidableEq

/-- `rows.ListedBy t`: walking `t` with depths gives these rows (with some ids). -/
def ListedBy (t : Tree α) (rows : List (Row α)) : Prop :=
  ∃ ids : List Nat, ids.length = rows.length ∧
    t.listing = some ((ids.zip rows).map fun p => (p.2.depth, p.1, some p.2.data, some p.2.span))

/-- Two lists of rows compared from the front: the depths, then the values, by asking `p`, which has
the state `m`; then the spans. It is over at the first difference, or when one list is used up. -/
def comparing (p : μ → α → α → μ × Bool) : μ → List (Row α) → List (Row α) → μ × Bool
  | m, [], [] => (m, true)
  | m, x :: l, y :: l' =>
    if x.depth = y.depth then
      let r := p m x.data y.data
      if r.2 = true ∧ x.span = y.span then comparing p r.1 l l' else (r.1, false)
    else (m, false)
  | m, _, _ => (m, false)

/-- Two nested lists of the same shape, with related values and the same spans. -/
def Forest.Match (r : α → α → Bool) : Forest (α × Span) → Forest (α × Span) → Prop
  | .nil, .nil => True
  | .cons x k l, .cons y k' l' =>
    r x.1 y.1 = true ∧ x.2 = y.2 ∧ k.Match r k' ∧ l.Match r l'
  | _, _ => False

end Syntree
