import Verif.Spec.Forest
import Verif.Model.Print

/-! # What a printed tree looks like -/

namespace Syntree

variable {α : Type}

/-- The line of one node: indentation, value, span, and for childless nodes the source text, or a
plus sign if there is none. -/
def lineOf (showIndex : Nat → String) (debugData : α → String) (debugStr : String → String)
    (source : Span → Option String) (depth : Nat) (x : Lab α) (childless : Bool) : String :=
  blanks (2 * depth) ++ debugData x.data ++ "@" ++ showIndex x.span.start ++ ".." ++
    showIndex x.span.stop ++
    (if childless then
      match source x.span with
      | some s => " " ++ debugStr s
      | none => " +"
    else "") ++ "\n"

/-- The lines of a nested list: one per node, parents before their children. -/
def linesOf (line : Nat → Lab α → Bool → String) (depth : Nat) : Forest (Lab α) → List String
  | .nil => []
  | .cons x kids rest =>
    line depth x kids.isNil :: (linesOf line (depth + 1) kids ++ linesOf line depth rest)

end Syntree
