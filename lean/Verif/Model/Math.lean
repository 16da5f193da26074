import Verif.Model.Builder
import Verif.Model.Text

/-!
# Model of `examples/math.rs`: a second client of the library

A lexer written as an iterator, and a parser that reuses one checkpoint for every operator of a
level. A loop that is not structurally bounded has fuel here; running out of it is `Err.diverge` (a
value that is no Rust error), and the theorems show that it does not happen.
-/

namespace Syntree.Math

/-- `examples/math.rs:8-22` — `Syntax`. -/
inductive Syn where
  | add | sub | mul | div | whitespace | number | error | operation | root
  deriving DecidableEq, Repr

/-! ## The lexer -/

/-- `str::char_indices`: every character with its offset; `pos` is the offset of the first one. -/
def charIndices : Nat → Text → List (Nat × Char)
  | _, [] => []
  | pos, c :: cs => (pos, c) :: charIndices (pos + c.utf8Size) cs

/-- `examples/math.rs:103-104` — what the closure of `lexer` owns: the characters that are left, and
the length of the source. (`Peekable` of an iterator over a list: `peek` is the head.) -/
structure Lexer where
  it : List (Nat × Char)
  len : Nat
  deriving DecidableEq, Repr

/-- `examples/math.rs:102-104` — `lexer`. -/
def Lexer.new (source : Text) : Lexer := ⟨charIndices 0 source, Text.bytes source⟩

/-- `examples/math.rs:133-137` — `eat`. -/
def eat (cond : Char → Bool) : List (Nat × Char) → List (Nat × Char)
  | [] => []
  | (n, c) :: it => if cond c then eat cond it else (n, c) :: it

/-- `examples/math.rs:109-127` — the `match` of the lexer on the first character of a token: the
characters that are left, and the kind of the token. -/
def scan (c : Char) (it : List (Nat × Char)) : List (Nat × Char) × Syn :=
  if isWhitespace c then (eat isWhitespace it, .whitespace)
  else if c = '+' then (it, .add)
  else if c = '-' then (it, .sub)
  else if c = '/' then (it, .div)
  else if c = '*' then (it, .mul)
  else if isDigit c then (eat (fun c => isDigit c || c == '.') it, .number)
  else (eat (fun c => !isWhitespace c) it, .error)

/-- `examples/math.rs:106-130` — the closure of `lexer`, `next` of the iterator.
`saturating_sub` is truncated subtraction. -/
def Lexer.next (l : Lexer) : Lexer × Option (Syn × Nat) :=
  match l.it with
  | [] => (l, none)
  | (start, c) :: it =>
    let r := scan c it
    let stop := match r.1.head? with
      | none => l.len
      | some (n, _) => n
    (⟨r.1, l.len⟩, some (r.2, stop - start))

/-- `std::iter::Peekable` of the lexer: `peeked` is the item `peek` has looked at, if any. -/
structure Peekable where
  iter : Lexer
  peeked : Option (Option (Syn × Nat))
  deriving DecidableEq, Repr

/-- `Peekable::peek`. -/
def Peekable.peek (p : Peekable) : Peekable × Option (Syn × Nat) :=
  match p.peeked with
  | some v => (p, v)
  | none => (⟨p.iter.next.1, some p.iter.next.2⟩, p.iter.next.2)

/-- `Peekable::next`. -/
def Peekable.next (p : Peekable) : Peekable × Option (Syn × Nat) :=
  match p.peeked with
  | some v => (⟨p.iter, none⟩, v)
  | none => (⟨p.iter.next.1, none⟩, p.iter.next.2)

/-! ## The parser -/

/-- `examples/math.rs:26-32` — `Parser`. The builder comes with the checkpoints handed out so far
(`Sys`), and a checkpoint is its number. The flavor of the builder is a type parameter in Rust and a
field here. -/
structure Parser where
  builder : Sys Syn
  iter : Peekable
  fl : Flavor
  deriving DecidableEq, Repr

/-- A function that takes `&mut Parser` and returns a `Result`; after an error the parser is never
looked at again (every call is followed by `?`). -/
abbrev P (β : Type) := Parser → Except Err (β × Parser)

/-- `x?; f(x)` — sequencing with the question mark operator. -/
def P.bind {β γ : Type} (x : P β) (f : β → P γ) : P γ := fun p =>
  match x p with
  | .error e => .error e
  | .ok (a, p) => f a p

instance : Monad P where
  pure a := fun p => .ok (a, p)
  bind := P.bind

/-- A call on `self.builder`, followed by `?`. -/
def call (op : Op Syn) : P Out := fun p =>
  match p.builder.step p.fl op with
  | (_, .error e) => .error e
  | (s, .ok o) => .ok (o, { p with builder := s })

/-- `self.builder.checkpoint()?` (`examples/math.rs:74`). -/
def checkpoint : P Nat := fun p =>
  match call .checkpoint p with
  | .error e => .error e
  | .ok (.handle k, p) => .ok (k, p)
  | .ok (_, p) => .ok (0, p) -- `checkpoint` returns a checkpoint

/-- `self.iter.peek()`. -/
def look : P (Option (Syn × Nat)) := fun p =>
  .ok (p.iter.peek.2, { p with iter := p.iter.peek.1 })

/-- `self.iter.next()`. -/
def advance : P (Option (Syn × Nat)) := fun p =>
  .ok (p.iter.next.2, { p with iter := p.iter.next.1 })

/-- `examples/math.rs:46-52` — `Parser::bump`. -/
def bump : P Unit := do
  match (← advance) with
  | some (token, len) => do
    let _ ← call (.token token len)
    pure ()
  | none => pure ()

/-- `examples/math.rs:39-41` — the loop of `Parser::peek`. -/
def skipLoop : Nat → P Unit
  | 0 => fun _ => .error .diverge
  | fuel + 1 => do
    match (← look) with
    | some (.whitespace, _) => do
      bump
      skipLoop fuel
    | _ => pure ()

/-- Fuel for a loop that takes a token in every round: one round per character, one for a token that
has been peeked at, and one to see that nothing is left. -/
def fuelFor (p : Parser) : Nat := p.iter.iter.it.length + 2

/-- `examples/math.rs:38-44` — `Parser::peek`. -/
def peek : P (Option Syn) := do
  (fun p => skipLoop (fuelFor p) p : P Unit)
  let t ← look
  pure (t.map (·.1))

/-- `examples/math.rs:54-67` — `Parser::parse_val`. -/
def parseVal : P Unit := do
  match (← peek) with
  | some .number => bump
  | _ => do
    let _ ← call (.open .error)
    bump
    let _ ← call .close
    pure ()

/-- `examples/math.rs:77-81` — the loop of `Parser::handle_operation`. -/
def operationLoop (tokens : List Syn) (next : P Unit) (c : Nat) : Nat → P Unit
  | 0 => fun _ => .error .diverge
  | fuel + 1 => do
    match (← peek) with
    | some t =>
      if t ∈ tokens then do
        bump
        next
        let _ ← call (.closeAt c .operation)
        operationLoop tokens next c fuel
      else pure ()
    | none => pure ()

/-- `examples/math.rs:69-84` — `Parser::handle_operation`. -/
def handleOperation (tokens : List Syn) (next : P Unit) : P Unit := do
  let c ← checkpoint
  next
  fun p => operationLoop tokens next c (fuelFor p) p

/-- `examples/math.rs:86-88` — `Parser::parse_mul`. -/
def parseMul : P Unit := handleOperation [.mul, .div] parseVal

/-- `examples/math.rs:90-92` — `Parser::parse_add`. -/
def parseAdd : P Unit := handleOperation [.add, .sub] parseMul

/-- `examples/math.rs:94-99` — `Parser::parse`, up to `build`. -/
def parseRoot : P Unit := do
  let _ ← call (.open .root)
  parseAdd
  let _ ← call .close
  pure ()

/-- `examples/math.rs:94-99`, `140-150` — `Parser::parse` of the tokens of a source, with a new
builder. -/
def parse (source : Text) : Except Err (Tree Syn) :=
  match parseRoot ⟨Sys.init, ⟨Lexer.new source, none⟩, Flavor.default⟩ with
  | .error e => .error e
  | .ok (_, p) => p.builder.b.build

end Syntree.Math
