import Verif.Model.MacroRules

/-! # What is written inside `tree! { .. }` -/

namespace Syntree

variable {ε : Type}

/-- The tokens of an expression, followed by `k`. -/
def Expr.write (x : Expr ε) (k : Tts ε) : Tts ε :=
  let k := x.mores.foldr .more k
  match x.head with
  | .atom e => .atom e k
  | .paren i => .paren i k

/-- `(x, y)`, followed by `k`. -/
def writePair (x y : Tts ε → Tts ε) (k : Tts ε) : Tts ε :=
  .paren (x (.comma (y .nil))) k

/-- A literal as its author thinks of it: a list of items, each with its arguments. `nil` ends a list
without, `trail` with a comma after the last item. -/
inductive Src (ε : Type) where
  | nil
  | trail
  | tokenWith (x s e : Expr ε) (rest : Src ε)
  | token (x n : Expr ε) (rest : Src ε)
  | tokenEmpty (x : Expr ε) (rest : Src ε)
  | openWith (x s e : Expr ε) (kids rest : Src ε)
  | open (x : Expr ε) (kids rest : Src ε)
  deriving DecidableEq, Repr

namespace Src

/-- A comma between two items and before `trail`. -/
def sep : Src ε → Tts ε → Tts ε
  | .nil, t => t
  | _, t => .comma t

/-- How the literal is written:
`(x, (s, e))`, `(x, n)`, `x`, `(x, (s, e)) => { .. }` and `x => { .. }`, separated by commas. -/
def write : Src ε → Tts ε
  | .nil => .nil
  | .trail => .nil
  | .tokenWith x s e r => writePair x.write (writePair s.write e.write) (r.sep r.write)
  | .token x n r => writePair x.write n.write (r.sep r.write)
  | .tokenEmpty x r => x.write (r.sep r.write)
  | .openWith x s e k r =>
    writePair x.write (writePair s.write e.write) (.arrow (.brace k.write (r.sep r.write)))
  | .open x k r => x.write (.arrow (.brace k.write (r.sep r.write)))

/-- The calls that the author expects. -/
def calls : Src ε → List (MCall ε)
  | .nil => []
  | .trail => []
  | .tokenWith x s e r => .tokenWith x s e :: r.calls
  | .token x n r => .token x n :: r.calls
  | .tokenEmpty x r => .tokenEmpty x :: r.calls
  | .openWith x s e k r => .openWith x s e :: (k.calls ++ .close :: r.calls)
  | .open x k r => .open x :: (k.calls ++ .close :: r.calls)

/-- A parenthesis that holds exactly two expressions, without a comma after the second. -/
def IsPair (x y : Expr ε) (p : Expr ε) : Prop :=
  p = ⟨.paren (x.write (.comma (y.write .nil))), []⟩

/-- `(x, y)` for some expressions. -/
def SomePair (p : Expr ε) : Prop := ∃ x y, IsPair x y p

/-- The expression is one: the parenthesis it may start with holds expressions. -/
def _root_.Syntree.Expr.Ok (x : Expr ε) : Prop :=
  ∀ i, x.head = .paren i → i.tuple true = true

/-- The literal can be read in one way only: a length and the value of an empty token is not a
pair `(x, y)`, and the value of a node is not of the form `(x, (y, z))`. -/
def Clear : Src ε → Prop
  | .nil => True
  | .trail => True
  | .tokenWith x s e r => x.Ok ∧ s.Ok ∧ e.Ok ∧ r.Clear
  | .token x n r => x.Ok ∧ n.Ok ∧ ¬ SomePair n ∧ r.Clear
  | .tokenEmpty x r => x.Ok ∧ ¬ SomePair x ∧ r.Clear
  | .openWith x s e k r => x.Ok ∧ s.Ok ∧ e.Ok ∧ k.Clear ∧ r.Clear
  | .open x k r => x.Ok ∧ (∀ y z, SomePair z → ¬ IsPair y z x) ∧ k.Clear ∧ r.Clear

/-- How many expansions are nested: one for every item before it on its level, and for every level.
(The rule for the last item of a list does not expand what follows it; an empty body is expanded.) -/
def nested : Src ε → Nat
  | .nil => 0
  | .trail => 0
  | .tokenWith _ _ _ r => 1 + r.nested
  | .token _ _ r => 1 + r.nested
  | .tokenEmpty _ r => 1 + r.nested
  | .openWith _ _ _ k r => 1 + max (max 1 k.nested) r.nested
  | .open _ k r => 1 + max (max 1 k.nested) r.nested

/-- The literal of `Model/Macro.lean`, where expressions have become values and numbers. -/
def lit {α : Type} (val : Expr ε → α) (num : Expr ε → Nat) : Src ε → Lit α
  | .nil => .nil
  | .trail => .nil
  | .tokenWith x s e r => .tokenWith (val x) ⟨num s, num e⟩ (r.lit val num)
  | .token x n r => .token (val x) (num n) (r.lit val num)
  | .tokenEmpty x r => .tokenEmpty (val x) (r.lit val num)
  | .openWith x s e k r => .nodeWith (val x) ⟨num s, num e⟩ (k.lit val num) (r.lit val num)
  | .open x k r => .node (val x) (k.lit val num) (r.lit val num)

end Src

end Syntree
