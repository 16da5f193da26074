import Verif.Spec.Calc

/-! # What an error of the calculator says -/

namespace Syntree.Calc

/-- The node has a child whose first child is an operator: a node with this value. -/
def HasOperator (nodes : Slice Syn) (node : Nat) (what : Syn) : Prop :=
  ∃ c o, nodeParent nodes c = some node ∧ nodeFirst nodes c = some o ∧
    nodeValue nodes o = some what

/-- The error that is reported about a node, whose value is `value`, says something that is true of
the node: a number that is no 64 bit integer, something where a number was expected, an operation in
which something is missing, or that has an operator that is none or that can have no result. (The
result of `-` is the only one to be called too small.) -/
def Truthful (source : Text) (nodes : Slice Syn) (node : Nat) (value : Syn) (span : Span) : Kind → Prop
  | .badNumber => value = .number ∧
      ∃ text, source.get (span.range Flavor.default.ik) = some text ∧ parseI64 text = none
  | .expected want got => want = .number ∧ got = value ∧ value ≠ .number ∧ value ≠ .group ∧
      value ≠ .operation
  | .missing what => what = .number ∧ (value = .group ∨ value = .operation)
  | .unexpectedOperator what => value = .operation ∧ HasOperator nodes node what ∧
      what ∉ [.plus, .minus, .mul, .div, .pow]
  | .expectedOperator => False
  | .overflow => value = .operation ∧ ∃ what ∈ [.plus, .mul, .pow], HasOperator nodes node what
  | .underflow => value = .operation ∧ HasOperator nodes node .minus
  | .divideByZero => value = .operation ∧ HasOperator nodes node .div

end Syntree.Calc
