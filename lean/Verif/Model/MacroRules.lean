import Verif.Model.Macro

/-!
# Model of `src/macros.rs`: which rule of `tree!` matches what is written

`Model/Macro.lean` starts from the literal after parsing. Here the input of the macro is a list of
token trees and the rules of the macro are tried in order, as `macro_rules!` does.

Simplifications: an expression is an opaque token `atom` (any complete expression that starts
neither with a parenthesis nor with a brace) or a parenthesis, followed by any number of opaque
tokens `more` that continue an expression (`.0`, `+ 1`, `?`, `(x)` after a function, ..). Expressions
that start with a brace (blocks) are left out: they are a compile error here.
-/

namespace Syntree

variable {ε : Type}

/-- A list of token trees. (`rest` is what follows.) -/
inductive Tts (ε : Type) where
  | nil
  | atom (e : ε) (rest : Tts ε)
  | more (e : ε) (rest : Tts ε)
  | comma (rest : Tts ε)
  | arrow (rest : Tts ε)
  | paren (inner rest : Tts ε)
  | brace (inner rest : Tts ε)
  deriving DecidableEq, Repr

/-- What an expression starts with. -/
inductive Head (ε : Type) where
  | atom (e : ε)
  | paren (inner : Tts ε)
  deriving DecidableEq, Repr

/-- What `$x:expr` is bound to. -/
structure Expr (ε : Type) where
  head : Head ε
  mores : List ε
  deriving DecidableEq, Repr

/-- Result of matching a part of a rule: it does not match (the next rule is tried), the compiler
stops with an error (an expression has begun and cannot be parsed), or it matches. -/
inductive Match (β : Type) where
  | no
  | fatal
  | yes (x : β)

namespace Match

def bind {β γ : Type} (m : Match β) (f : β → Match γ) : Match γ :=
  match m with
  | .no => .no
  | .fatal => .fatal
  | .yes x => f x

instance : Monad Match where
  pure := .yes
  bind := Match.bind

/-- Rules are tried in order; an error ends it. -/
def orElse {β : Type} (m : Match β) (m' : Match β) : Match β :=
  match m with
  | .no => m'
  | .fatal => .fatal
  | .yes x => .yes x

end Match

namespace Tts

/-- The tokens that continue an expression, and what follows them. -/
def takeMore : Tts ε → List ε × Tts ε
  | .more e r => (e :: (takeMore r).1, (takeMore r).2)
  | t => ([], t)

/-- May this be the content of a parenthesis in an expression: expressions separated by commas, with
an optional comma at the end? (`start`: an expression or the end is expected.) -/
def tuple : Bool → Tts ε → Bool
  | _, .nil => true
  | true, .atom _ r => tuple false r
  | true, .paren i r => tuple true i && tuple false r
  | false, .more _ r => tuple false r
  | false, .comma r => tuple true r
  | _, _ => false

/-- `$x:expr` -/
def expr : Tts ε → Match (Expr ε × Tts ε)
  | .atom e r => .yes (⟨.atom e, (takeMore r).1⟩, (takeMore r).2)
  | .paren i r => if tuple true i then .yes (⟨.paren i, (takeMore r).1⟩, (takeMore r).2) else .fatal
  | .brace _ _ => .fatal
  | _ => .no

/-- `,` -/
def comma? : Tts ε → Match (Tts ε)
  | .comma r => .yes r
  | _ => .no

/-- `=> { $($tt:tt)* }`: the content and what follows. -/
def body? : Tts ε → Match (Tts ε × Tts ε)
  | .arrow (.brace i r) => .yes (i, r)
  | _ => .no

/-- `( .. )`: the content and what follows. -/
def paren? : Tts ε → Match (Tts ε × Tts ε)
  | .paren i r => .yes (i, r)
  | _ => .no

/-- The end of the input or of a group. -/
def eof : Tts ε → Match Unit
  | .nil => .yes ()
  | _ => .no

/-- `$(,)?` and the end of the input. -/
def trailing : Tts ε → Match Unit
  | .comma r => eof r
  | r => eof r

/-- `, $($rest:tt)*` -/
def commaRest : Tts ε → Match (Tts ε) := comma?

/-- `$start:expr, $end:expr`, and the end of the group -/
def pair (i : Tts ε) : Match (Expr ε × Expr ε) := do
  let (s, r) ← expr i
  let r ← comma? r
  let (e, r) ← expr r
  eof r
  return (s, e)

/-- `($expr:expr, ($start:expr, $end:expr))` -/
def spanned (t : Tts ε) : Match (Expr ε × Expr ε × Expr ε × Tts ε) := do
  let (i, rest) ← paren? t
  let (x, r) ← expr i
  let r ← comma? r
  let (p, r) ← paren? r
  let (s, e) ← pair p
  eof r
  return (x, s, e, rest)

/-- `($expr:expr, $len:expr)` -/
def sized (t : Tts ε) : Match (Expr ε × Expr ε × Tts ε) := do
  let (i, rest) ← paren? t
  let (x, n) ← pair i
  return (x, n, rest)

end Tts

/-- The calls an expansion consists of. -/
inductive MCall (ε : Type) where
  | tokenWith (x s e : Expr ε)
  | token (x n : Expr ε)
  | tokenEmpty (x : Expr ε)
  | openWith (x s e : Expr ε)
  | open (x : Expr ε)
  | close
  deriving DecidableEq, Repr

/-- The right-hand side of a rule: a call, `tree!(@o $b, $($tt)*); $b.close()?;` if there is a body,
and `tree!(@o $b, $($rest)*);` if the rule has a `$rest`. -/
structure Rhs (ε : Type) where
  call : MCall ε
  body : Option (Tts ε)
  rest : Option (Tts ε)

namespace Rule

open Tts

/-- `src/macros.rs:53-55` -/
def tokenWithLast (t : Tts ε) : Match (Rhs ε) := do
  let (x, s, e, r) ← spanned t
  trailing r
  return ⟨.tokenWith x s e, none, none⟩

/-- `src/macros.rs:57-59` -/
def tokenLast (t : Tts ε) : Match (Rhs ε) := do
  let (x, n, r) ← sized t
  trailing r
  return ⟨.token x n, none, none⟩

/-- `src/macros.rs:61-64` -/
def tokenWithRest (t : Tts ε) : Match (Rhs ε) := do
  let (x, s, e, r) ← spanned t
  let rest ← commaRest r
  return ⟨.tokenWith x s e, none, some rest⟩

/-- `src/macros.rs:66-69` -/
def tokenRest (t : Tts ε) : Match (Rhs ε) := do
  let (x, n, r) ← sized t
  let rest ← commaRest r
  return ⟨.token x n, none, some rest⟩

/-- `src/macros.rs:71-73` -/
def emptyLast (t : Tts ε) : Match (Rhs ε) := do
  let (x, r) ← expr t
  trailing r
  return ⟨.tokenEmpty x, none, none⟩

/-- `src/macros.rs:75-78` -/
def emptyRest (t : Tts ε) : Match (Rhs ε) := do
  let (x, r) ← expr t
  let rest ← commaRest r
  return ⟨.tokenEmpty x, none, some rest⟩

/-- `src/macros.rs:80-84` -/
def openWithLast (t : Tts ε) : Match (Rhs ε) := do
  let (x, s, e, r) ← spanned t
  let (b, r) ← body? r
  trailing r
  return ⟨.openWith x s e, some b, none⟩

/-- `src/macros.rs:86-90` -/
def openLast (t : Tts ε) : Match (Rhs ε) := do
  let (x, r) ← expr t
  let (b, r) ← body? r
  trailing r
  return ⟨.open x, some b, none⟩

/-- `src/macros.rs:92-97` -/
def openWithRest (t : Tts ε) : Match (Rhs ε) := do
  let (x, s, e, r) ← spanned t
  let (b, r) ← body? r
  let rest ← commaRest r
  return ⟨.openWith x s e, some b, some rest⟩

/-- `src/macros.rs:99-104` -/
def openRest (t : Tts ε) : Match (Rhs ε) := do
  let (x, r) ← expr t
  let (b, r) ← body? r
  let rest ← commaRest r
  return ⟨.open x, some b, some rest⟩

/-- `src/macros.rs:53-104` — the rules in the order they are tried in. -/
def first (t : Tts ε) : Match (Rhs ε) :=
  (tokenWithLast t).orElse <|
  (tokenLast t).orElse <|
  (tokenWithRest t).orElse <|
  (tokenRest t).orElse <|
  (emptyLast t).orElse <|
  (emptyRest t).orElse <|
  (openWithLast t).orElse <|
  (openLast t).orElse <|
  (openWithRest t).orElse <|
  openRest t

end Rule

/-- `src/macros.rs:51-104` — the calls that `tree!(@o b, ..)` expands to, when at most `limit`
expansions may be nested (the recursion limit of the compiler); `none` is a compile error. If no
`@o` rule matches, the last rule (`src/macros.rs:106-110`) does, and again for its own expansion,
without end. -/
def Tts.calls : Nat → Tts ε → Option (List (MCall ε))
  | 0, _ => none
  | _ + 1, .nil => some []
  | limit + 1, t =>
    match Rule.first t with
    | .no => none
    | .fatal => none
    | .yes ⟨c, body, rest⟩ => do
      let inner ← match body with
        | none => some []
        | some b => do
          let cs ← Tts.calls limit b
          some (cs ++ [.close])
      let after ← match rest with
        | none => some []
        | some r => Tts.calls limit r
      some (c :: (inner ++ after))

/-- The call with its arguments: `val` and `num` say what an expression evaluates to as a value of
the tree and as a number. -/
def MCall.op {α : Type} (val : Expr ε → α) (num : Expr ε → Nat) : MCall ε → Op α
  | .tokenWith x s e => .tokenWith (val x) ⟨num s, num e⟩
  | .token x n => .token (val x) (num n)
  | .tokenEmpty x => .tokenEmpty (val x)
  | .openWith x s e => .openWith (val x) ⟨num s, num e⟩
  | .open x => .open (val x)
  | .close => .close

/-- `src/macros.rs:106-110` (`tree!`) and `src/macros.rs:150-154` (`tree_with!`), where the outer
expansion is one of the nested ones. `none` is a compile error. -/
def Tts.tree {α : Type} (fl : Flavor) (val : Expr ε → α) (num : Expr ε → Nat) (limit : Nat)
    (t : Tts ε) : Option (Except Err (Tree α)) :=
  match limit with
  | 0 => none
  | limit + 1 =>
    (t.calls limit).map fun cs =>
      match Sys.init.tryRun fl (cs.map (MCall.op val num)) with
      | .error e => .error e
      | .ok s => s.b.build

end Syntree
