import Verif.Model.Math
import Verif.Spec.Calc

/-!
# What the math example is meant to do

How a text is cut into tokens, and the tree for a list of tokens.
-/

namespace Syntree.Math

open Forest

/-! ## Tokens -/

/-- The one-character tokens. -/
def symbol : Char → Option Syn
  | '+' => some .add
  | '-' => some .sub
  | '*' => some .mul
  | '/' => some .div
  | _ => none

/-- A character inside of a number. -/
def isNumeric (c : Char) : Bool := isDigit c || c == '.'

/-- `Lexed cs pieces`: the text `cs` is cut into the pieces, each with its kind: symbols; maximal runs
of whitespace; a digit and all digits and dots behind it; and anything else up to the next
whitespace. -/
inductive Lexed : Text → List (Syn × Text) → Prop where
  | nil : Lexed [] []
  | symbol {c : Char} {k : Syn} {rest : Text} {ps : List (Syn × Text)} :
      symbol c = some k → Lexed rest ps → Lexed (c :: rest) ((k, [c]) :: ps)
  | whitespace {c : Char} {run rest : Text} {ps : List (Syn × Text)} :
      (∀ x ∈ c :: run, isWhitespace x) → Calc.Stops isWhitespace rest →
      Lexed rest ps → Lexed (c :: run ++ rest) ((.whitespace, c :: run) :: ps)
  | number {c : Char} {run rest : Text} {ps : List (Syn × Text)} :
      isDigit c → (∀ x ∈ run, isNumeric x) → Calc.Stops isNumeric rest →
      Lexed rest ps → Lexed (c :: run ++ rest) ((.number, c :: run) :: ps)
  | error {c : Char} {run rest : Text} {ps : List (Syn × Text)} :
      isWhitespace c = false → symbol c = none → isDigit c = false →
      (∀ x ∈ run, isWhitespace x = false) → Calc.Stops (fun x => !isWhitespace x) rest →
      Lexed rest ps → Lexed (c :: run ++ rest) ((.error, c :: run) :: ps)

/-- The item of the iterator for a piece. -/
def tokenOf (p : Syn × Text) : Syn × Nat := (p.1, Text.bytes p.2)

/-- The lexer as an iterator. -/
def Lexer.iter : NextFn Lexer (Syn × Nat) := fun l => ((Lexer.next l).1, .ofOption (Lexer.next l).2)

/-- The pieces laid out from an offset on. -/
def lay : Nat → List (Syn × Text) → List (Syn × Span)
  | _, [] => []
  | a, p :: ps => (p.1, ⟨a, a + Text.bytes p.2⟩) :: lay (a + Text.bytes p.2) ps

/-! ## The grammar

On the kinds of tokens. `Rule input nodes rest`: the rule reads the front of `input`, which makes the
nodes `nodes`, and leaves `rest`. -/

/-- A number of whitespace tokens. -/
abbrev blanks (n : Nat) : List Syn := List.replicate n .whitespace

/-- The same, as nodes. -/
def blankNodes : Nat → Forest Syn
  | 0 => .nil
  | n + 1 => .cons .whitespace .nil (blankNodes n)

/-- A value is a number. Any other token in its place is put into an error node; at the end of the
input the error node is empty. -/
inductive Val : List Syn → Forest Syn → List Syn → Prop where
  | number (n : Nat) (r : List Syn) :
      Val (blanks n ++ .number :: r) (blankNodes n ++ leaf .number) r
  | error (n : Nat) {k : Syn} (r : List Syn) : k ≠ .number → k ≠ .whitespace →
      Val (blanks n ++ k :: r) (blankNodes n ++ single .error (leaf k)) r
  | missing (n : Nat) : Val (blanks n) (blankNodes n ++ leaf .error) []

/-- The input does not start with one of these. -/
def NoHead (ks : List Syn) (i : List Syn) : Prop := ∀ k, i.head? = some k → k ∉ ks

/-- Operands with operators from `ops` between them, nested to the left: each operator makes an
operation of everything read so far, the operator, and the operand behind it. -/
inductive Chain (ops : List Syn) (Operand : List Syn → Forest Syn → List Syn → Prop) :
    List Syn → Forest Syn → List Syn → Prop where
  | one {i F r} : Operand i F r → Chain ops Operand i F r
  | op {i F n o m G r} : Chain ops Operand i F (blanks n ++ o :: m) → o ∈ ops → Operand m G r →
      Chain ops Operand i (single .operation (F ++ blankNodes n ++ leaf o ++ G)) r

/-- A chain that does not go on, and the whitespace behind it. -/
inductive Whole (ops : List Syn) (Operand : List Syn → Forest Syn → List Syn → Prop) :
    List Syn → Forest Syn → List Syn → Prop where
  | mk {i F n r} : Chain ops Operand i F (blanks n ++ r) → NoHead (.whitespace :: ops) r →
      Whole ops Operand i (F ++ blankNodes n) r

/-- A product of values. -/
abbrev Product := Whole [.mul, .div] Val

/-- A sum of products: what the parser reads. -/
abbrev Sum := Whole [.add, .sub] Product

/-! ## Expressions -/

/-- An expression and its spelling: `ws` is whitespace behind a token. -/
inductive Expr where
  | num (digits ws : Text)
  | bin (l : Expr) (o : Char) (ws : Text) (r : Expr)
  deriving DecidableEq, Repr

/-- The text of an expression. -/
def Expr.text : Expr → Text
  | .num ds ws => ds ++ ws
  | .bin l o ws r => l.text ++ o :: ws ++ r.text

/-- How tightly an operator binds. -/
def opLevel : Char → Nat
  | '+' | '-' => 1
  | _ => 2

/-- How tightly the outermost operator of an expression binds. -/
def Expr.level : Expr → Nat
  | .num .. => 3
  | .bin _ o _ _ => opLevel o

/-- The text reads as this expression: numbers start with a digit and go on with digits and dots,
blanks are whitespace, and operators bind by level and to the left. -/
def Expr.WF : Expr → Prop
  | .num ds ws => (∃ c run, ds = c :: run ∧ isDigit c ∧ ∀ x ∈ run, isNumeric x) ∧
      ∀ c ∈ ws, isWhitespace c
  | .bin l o ws r => l.WF ∧ r.WF ∧ (∀ c ∈ ws, isWhitespace c) ∧ o ∈ ['+', '-', '*', '/'] ∧
      opLevel o ≤ l.level ∧ opLevel o < r.level

/-- The syntax tree of an expression. -/
def Expr.tree : Expr → Forest Syn
  | .num _ _ => leaf .number
  | .bin l o _ r => single .operation (l.tree ++ leaf ((symbol o).getD .error) ++ r.tree)

/-- Leave out the whitespace. -/
def strip : Forest Syn → Forest Syn
  | .nil => .nil
  | .cons x k r => if x = .whitespace then strip r else .cons x (strip k) (strip r)

end Syntree.Math
