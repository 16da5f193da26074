import Verif.Model.Calc
import Verif.Spec.Forest

/-!
# What the calculator example is meant to do

`Lexed` says how a text is cut into tokens, `Expr` are arithmetic expressions with their spelling and
their value.
-/

namespace Syntree.Calc

/-! ## Tokens -/

/-- The one-character tokens. -/
def symbol : Char → Option Syn
  | '+' => some .plus
  | '-' => some .minus
  | '*' => some .mul
  | '/' => some .div
  | '^' => some .pow
  | '(' => some .openParen
  | ')' => some .closeParen
  | _ => none

/-- May the character start an error token? -/
def isOther (c : Char) : Bool := !isWhitespace c && (symbol c).isNone && !isDigit c

/-- The text does not start with a character that satisfies `p`. -/
def Stops (p : Char → Bool) (cs : Text) : Prop := ∀ c, cs.head? = some c → p c = false

/-- `Lexed cs pieces`: the text `cs` is cut into the pieces, each with its kind: symbols; maximal runs
of whitespace; maximal runs of digits; and anything else up to the next whitespace. -/
inductive Lexed : Text → List (Syn × Text) → Prop where
  | nil : Lexed [] []
  | symbol {c : Char} {k : Syn} {rest : Text} {ps : List (Syn × Text)} :
      symbol c = some k → Lexed rest ps → Lexed (c :: rest) ((k, [c]) :: ps)
  | whitespace {c : Char} {run rest : Text} {ps : List (Syn × Text)} :
      (∀ x ∈ c :: run, isWhitespace x) → Stops isWhitespace rest →
      Lexed rest ps → Lexed (c :: run ++ rest) ((.whitespace, c :: run) :: ps)
  | number {c : Char} {run rest : Text} {ps : List (Syn × Text)} :
      (∀ x ∈ c :: run, isDigit x) → Stops isDigit rest →
      Lexed rest ps → Lexed (c :: run ++ rest) ((.number, c :: run) :: ps)
  | error {c : Char} {run rest : Text} {ps : List (Syn × Text)} :
      isOther c → (∀ x ∈ run, isWhitespace x = false) → Stops (fun x => !isWhitespace x) rest →
      Lexed rest ps → Lexed (c :: run ++ rest) ((.error, c :: run) :: ps)

/-- The token for a piece. -/
def tokenOf (p : Syn × Text) : Token := ⟨Text.bytes p.2, p.1⟩

/-- The lexer as an iterator. -/
def Lexer.iter : NextFn Lexer Token := fun l => ((Lexer.next l).1, .ofOption (Lexer.next l).2)

/-! ## Trees -/

/-- The spans of every level follow each other without gaps, from `a` to `b`. -/
def Tiles {α : Type} : Forest (α × Span) → Nat → Nat → Prop
  | .nil, a, b => a = b
  | .cons x k r, a, b => ∃ m, x.2 = ⟨a, m⟩ ∧ a ≤ m ∧ (k ≠ .nil → Tiles k a m) ∧ Tiles r m b

/-- The tokens laid out from an offset on. -/
def lay : Nat → List Token → List (Syn × Span)
  | _, [] => []
  | a, t :: ts => (t.syn, ⟨a, a + t.len⟩) :: lay (a + t.len) ts

/-- The leaves that are not empty. -/
def solid {α : Type} (F : Forest (α × Span)) : List (α × Span) :=
  F.leaves.filter fun x => x.2.start != x.2.stop

/-! ## Expressions -/

/-- Binary operators. -/
inductive Bin where
  | add | sub | mul | div | pow
  deriving DecidableEq, Repr

def Bin.char : Bin → Char
  | .add => '+'
  | .sub => '-'
  | .mul => '*'
  | .div => '/'
  | .pow => '^'

/-- How tightly an operator binds. -/
def Bin.level : Bin → Nat
  | .add | .sub => 1
  | .mul | .div => 2
  | .pow => 3

/-- An expression and its spelling: `ws` is whitespace behind a token. -/
inductive Expr where
  | num (digits ws : Text)
  | paren (ws : Text) (e : Expr) (ws' : Text)
  | bin (l : Expr) (o : Bin) (ws : Text) (r : Expr)
  deriving DecidableEq, Repr

/-- The text of an expression. -/
def Expr.text : Expr → Text
  | .num ds ws => ds ++ ws
  | .paren ws e ws' => '(' :: ws ++ e.text ++ ')' :: ws'
  | .bin l o ws r => l.text ++ o.char :: ws ++ r.text

/-- How tightly the outermost operator of an expression binds. -/
def Expr.level : Expr → Nat
  | .num .. | .paren .. => 4
  | .bin _ o _ _ => o.level

/-- The text reads as this expression: numbers are made of digits, blanks of whitespace, and
operators that are not in parentheses bind by level and to the left. -/
def Expr.WF : Expr → Prop
  | .num ds ws => ds ≠ [] ∧ (∀ c ∈ ds, isDigit c) ∧ ∀ c ∈ ws, isWhitespace c
  | .paren ws e ws' => (∀ c ∈ ws, isWhitespace c) ∧ e.WF ∧ ∀ c ∈ ws', isWhitespace c
  | .bin l o ws r => l.WF ∧ r.WF ∧ (∀ c ∈ ws, isWhitespace c) ∧
      o.level ≤ l.level ∧ o.level < r.level

/-- The result of an operator on 64 bit numbers, or the complaint. -/
def Bin.apply : Bin → Int → Int → Except Kind Int
  | .add, a, b => if inI64 (a + b) then .ok (a + b) else .error .overflow
  | .sub, a, b => if inI64 (a - b) then .ok (a - b) else .error .underflow
  | .mul, a, b => if inI64 (a * b) then .ok (a * b) else .error .overflow
  | .div, a, b =>
    if b = 0 then .error .divideByZero
    else if inI64 (a.tdiv b) then .ok (a.tdiv b) else .error .divideByZero
  | .pow, a, b =>
    if 0 ≤ b ∧ b < 2 ^ 32 ∧ inI64 (a ^ b.toNat) then .ok (a ^ b.toNat) else .error .overflow

/-- The value of an expression: operands from left to right, the first complaint wins. -/
def Expr.value : Expr → Except Kind Int
  | .num ds _ => if inI64 (decimal ds) then .ok (decimal ds) else .error .badNumber
  | .paren _ e _ => e.value
  | .bin l o _ r =>
    match l.value with
    | .error k => .error k
    | .ok a =>
      match r.value with
      | .error k => .error k
      | .ok b => o.apply a b

/-- No parenthesis is followed by whitespace, or directly by another parenthesis that encloses all
of its content. -/
def Expr.Plain : Expr → Prop
  | .num .. => True
  | .paren ws e _ => ws = [] ∧ (∀ w e' w', e ≠ .paren w e' w') ∧ e.Plain
  | .bin l _ _ r => l.Plain ∧ r.Plain

/-- What the calculator computes: as `value`, except that it cannot evaluate a parenthesis whose
content starts with whitespace or is itself in parentheses. -/
def Expr.computed : Expr → Except Kind Int
  | .num ds _ => if inI64 (decimal ds) then .ok (decimal ds) else .error .badNumber
  | .paren (_ :: _) _ _ => .error (.expected .number .whitespace)
  | .paren [] (.paren _ _ _) _ => .error (.expected .number .openParen)
  | .paren [] e _ => e.computed
  | .bin l o _ r =>
    match l.computed with
    | .error k => .error k
    | .ok a =>
      match r.computed with
      | .error k => .error k
      | .ok b => o.apply a b

/-- Forget the span of an error. -/
def kindOf : Except EvalError Int → Except Kind Int
  | .ok n => .ok n
  | .error e => .error e.kind

end Syntree.Calc
