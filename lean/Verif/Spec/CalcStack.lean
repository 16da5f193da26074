import Verif.Spec.Calc

/-! Vocabulary of the statements on the stack of the calculator. -/

namespace Syntree.Calc

/-- `1+1*1^1`, with `n` parentheses around the last operand of each other:
`1+1*1^(1+1*1^(…1+1*1^1…))`. -/
def parens : Nat → Text
  | 0 => ['1', '+', '1', '*', '1', '^', '1']
  | n + 1 => ['1', '+', '1', '*', '1', '^', '('] ++ parens n ++ [')']

end Syntree.Calc
