import Verif.Model.Builder
import Verif.Model.Node
import Verif.Model.Text

/-!
# Model of `examples/calculator`: a client of the library

The lexer, the parser (a recursive descent parser that drives a `Builder` with checkpoints), and the
evaluator (which reads the tree through `Node`). A loop or recursion of the Rust code that is not
structurally bounded has fuel here; running out of it is `Err.diverge` (a value that is no Rust
error) or `none`, and the theorems show that it does not happen.
-/

namespace Syntree.Calc

/-- `examples/calculator/main.rs:15-36` — `Syntax`. -/
inductive Syn where
  | number | plus | minus | div | mul | pow | whitespace | operator | openParen | closeParen
  | operation | group | eof | error
  deriving DecidableEq, Repr

/-! ## The lexer -/

/-- `examples/calculator/lexer.rs:6-9` — `Token`. -/
structure Token where
  len : Nat
  syn : Syn
  deriving DecidableEq, Repr

/-- `examples/calculator/lexer.rs:11-14` — `Lexer`. -/
structure Lexer where
  source : Text
  cursor : Nat
  deriving DecidableEq, Repr

/-- `examples/calculator/lexer.rs:17-19` — `Lexer::new`. -/
def Lexer.new (source : Text) : Lexer := ⟨source, 0⟩

/-- `examples/calculator/lexer.rs:22-24` — `Lexer::peek`. -/
def Lexer.peek (l : Lexer) : Option Char := (l.source.dropBytes l.cursor).bind List.head?

/-- `examples/calculator/lexer.rs:27-31` — `Lexer::step`. -/
def Lexer.step (l : Lexer) : Lexer :=
  match l.peek with
  | some c => { l with cursor := l.cursor + c.utf8Size }
  | none => l

/-- `examples/calculator/lexer.rs:34-42` — the loop of `Lexer::consume_while`. -/
def Lexer.consumeLoop (cond : Char → Bool) : Nat → Lexer → Lexer
  | 0, l => l
  | fuel + 1, l =>
    match l.peek with
    | none => l
    | some c => if cond c then Lexer.consumeLoop cond fuel l.step else l

/-- `examples/calculator/lexer.rs:34-42` — `Lexer::consume_while`. The number of characters of the
source bounds the number of iterations. -/
def Lexer.consumeWhile (l : Lexer) (cond : Char → Bool) : Lexer :=
  Lexer.consumeLoop cond l.source.length l

/-- `examples/calculator/lexer.rs:49-92` — the `match` of `Lexer::next`: the lexer after the token
and its kind. -/
def Lexer.scan (l : Lexer) (c : Char) : Lexer × Syn :=
  if isWhitespace c then (l.step.consumeWhile isWhitespace, .whitespace)
  else if c = '+' then (l.step, .plus)
  else if c = '-' then (l.step, .minus)
  else if c = '*' then (l.step, .mul)
  else if c = '/' then (l.step, .div)
  else if c = '^' then (l.step, .pow)
  else if c = '(' then (l.step, .openParen)
  else if c = ')' then (l.step, .closeParen)
  else if isDigit c then (l.step.consumeWhile isDigit, .number)
  else (l.consumeWhile (fun c => !isWhitespace c), .error)

/-- `examples/calculator/lexer.rs:45-96` — `Lexer::next`. `saturating_sub` is truncated subtraction. -/
def Lexer.next (l : Lexer) : Lexer × Option Token :=
  match l.peek with
  | none => (l, none)
  | some c =>
    let r := l.scan c
    (r.1, some ⟨r.1.cursor - l.cursor, r.2⟩)

/-! ## The parser -/

/-- `examples/calculator/parsing.rs:10-15` — `Parser`. The builder comes with the checkpoints handed
out so far (`Sys`), and a checkpoint is its number. The flavor of the builder is a type parameter in
Rust and a field here. -/
structure Parser where
  lexer : Lexer
  tree : Sys Syn
  buf : Option Token
  fl : Flavor
  deriving DecidableEq, Repr

/-- `examples/calculator/parsing.rs:18-24` — `Parser::new`. -/
def Parser.new (source : Text) : Parser := ⟨Lexer.new source, Sys.init, none, Flavor.default⟩

/-- A function that takes `&mut Parser` and returns a `Result`; after an error the parser is never
looked at again (every call is followed by `?`). -/
abbrev P (β : Type) := Parser → Except Err (β × Parser)

/-- `x?; f(x)` — sequencing with the question mark operator. -/
def P.bind {β γ : Type} (x : P β) (f : β → P γ) : P γ := fun p =>
  match x p with
  | .error e => .error e
  | .ok (a, p) => f a p

instance : Monad P where
  pure a := fun p => .ok (a, p)
  bind := P.bind

/-- A call on `p.tree`, followed by `?`. -/
def call (op : Op Syn) : P Out := fun p =>
  match p.tree.step p.fl op with
  | (_, .error e) => .error e
  | (s, .ok o) => .ok (o, { p with tree := s })

/-- `p.tree.checkpoint()?` (`examples/calculator/grammar.rs:22`, `28`, `79`). -/
def checkpoint : P Nat := fun p =>
  match call .checkpoint p with
  | .error e => .error e
  | .ok (.handle k, p) => .ok (k, p)
  | .ok (_, p) => .ok (0, p) -- `checkpoint` returns a checkpoint

/-- `examples/calculator/parsing.rs:98-115` — `Parser::fill`. -/
def fillLoop : Nat → P Unit
  | 0 => fun _ => .error .diverge
  | fuel + 1 => fun p =>
    match p.buf with
    | some _ => .ok ((), p)
    | none =>
      match p.lexer.next with
      | (l, none) => .ok ((), { p with lexer := l })
      | (l, some tok) =>
        if tok.syn = .whitespace then
          (do let _ ← call (.token tok.syn tok.len); fillLoop fuel : P Unit) { p with lexer := l }
        else .ok ((), { p with lexer := l, buf := some tok })

/-- `examples/calculator/parsing.rs:98-115` — `Parser::fill`, with fuel for one iteration per
character of the source. -/
def fill : P Unit := fun p => fillLoop (p.lexer.source.length + 1) p

/-- `examples/calculator/parsing.rs:27-39` — `Parser::peek`. -/
def peek : P Token := do
  fill
  fun p => .ok (p.buf.getD ⟨0, .eof⟩, p)

/-- `examples/calculator/parsing.rs:92-96` — `Parser::step`. -/
def step : P Token := do
  let tok ← peek
  fun p => .ok (tok, { p with buf := none })

/-- `examples/calculator/parsing.rs:42-44` — `Parser::is_eof`. -/
def isEof : P Bool := do
  let tok ← peek
  pure (tok.syn == .eof)

/-- `examples/calculator/parsing.rs:47-55` — `Parser::eat`. -/
def eat (what : Syn) : P Bool := do
  let tok ← peek
  if tok.syn ≠ what then pure false
  else do
    let tok ← step
    let _ ← call (.token tok.syn tok.len)
    pure true

/-- `examples/calculator/parsing.rs:58-62` — `Parser::token`. -/
def token : P Unit := do
  let tok ← step
  let _ ← call (.token tok.syn tok.len)
  pure ()

/-- `examples/calculator/parsing.rs:65-71` — `Parser::bump`. -/
def bump (what : Syn) : P Unit := do
  let tok ← step
  let _ ← call (.open what)
  let _ ← call (.token tok.syn tok.len)
  let _ ← call .close
  pure ()

/-- `examples/calculator/parsing.rs:77-86` — the loop of `Parser::advance_until`. -/
def advanceLoop (any : List Syn) : Nat → P Unit
  | 0 => fun _ => .error .diverge
  | fuel + 1 => do
    let t ← peek
    if t.syn = .eof ∨ t.syn ∈ any then pure ()
    else do
      let _ ← call (.token t.syn t.len)
      let _ ← step
      advanceLoop any fuel

/-- `examples/calculator/parsing.rs:74-89` — `Parser::advance_until`. -/
def advanceUntil (any : List Syn) : P Unit := fun p =>
  advanceLoop any (p.lexer.source.length + 2) p

/-! ## The grammar -/

/-- `examples/calculator/grammar.rs:7-16` — `op`. -/
def op : Syn → Option (Nat × Nat)
  | .plus | .minus => some (1, 2)
  | .div | .mul => some (3, 4)
  | .pow => some (7, 8)
  | _ => none

mutual
/-- `examples/calculator/grammar.rs:18-66` — `expr`. The inner `do` block is the `match` of lines
24-44; it returns `false` where the Rust code returns early. -/
def expr : Nat → Nat → P Unit
  | 0, _ => fun _ => .error .diverge
  | fuel + 1, min => do
    let tok ← peek
    let c ← checkpoint
    let go ← (match tok.syn with
      | .openParen => do
        token
        let c ← checkpoint
        expr fuel 0
        let _ ← call (.closeAt c .group)
        let closed ← eat .closeParen
        if !closed then do
          bump .error
          pure false
        else pure true
      | .number => do
        bump .number
        pure true
      | _ => do
        bump .error
        pure false : P Bool)
    if go then do
      let operation ← exprLoop fuel min false
      if operation then do
        let _ ← call (.closeAt c .operation)
        pure ()
      else pure ()
    else pure ()
/-- `examples/calculator/grammar.rs:48-59` — the loop of `expr`; the result is the variable
`operation`. -/
def exprLoop : Nat → Nat → Bool → P Bool
  | 0, _, _ => fun _ => .error .diverge
  | fuel + 1, min, operation => do
    let tok ← peek
    match op tok.syn with
    | some (left, right) =>
      if left ≥ min then do
        bump .operator
        expr fuel right
        exprLoop fuel min true
      else pure operation
    | none => pure operation
end

/-- Fuel for the recursion of `expr`: two levels per character of the source. -/
def fuelFor (p : Parser) : Nat := 2 * p.lexer.source.length + 4

/-- `examples/calculator/grammar.rs:71` — the call of `expr` in `root`. -/
def exprTop : P Unit := fun p => expr (fuelFor p) 0 p

/-- `examples/calculator/grammar.rs:70-82` — the loop of `root`. -/
def rootLoop : Nat → P Unit
  | 0 => fun _ => .error .diverge
  | fuel + 1 => do
    exprTop
    let eof ← isEof
    if eof then pure ()
    else do
      let c ← checkpoint
      advanceUntil [.number]
      let _ ← call (.closeAt c .error)
      rootLoop fuel

/-- `examples/calculator/grammar.rs:69-85` — `root`. -/
def root : P Unit := fun p => rootLoop (p.lexer.source.length + 1) p

/-- `examples/calculator/main.rs:41-44` — parse the source and build the tree. -/
def parse (source : Text) : Except Err (Tree Syn) :=
  match root (Parser.new source) with
  | .error e => .error e
  | .ok (_, p) => p.tree.b.build

/-! ## The evaluator -/

/-- `examples/calculator/eval.rs:23-47` — `EvalErrorKind`. -/
inductive Kind where
  | expected (want got : Syn)
  | missing (s : Syn)
  | badNumber
  | unexpectedOperator (s : Syn)
  | expectedOperator
  | overflow
  | underflow
  | divideByZero
  deriving DecidableEq, Repr

/-- `examples/calculator/eval.rs:8-14` — `EvalError`. -/
structure EvalError where
  span : Span
  kind : Kind
  deriving DecidableEq, Repr

/-- `examples/calculator/eval.rs:54-57` — `pow`. -/
def pow (a b : Int) : Option Int :=
  match tryU32 b with
  | none => none
  | some n => checkedPow a n

/-- `examples/calculator/eval.rs:90-97` — the operator table of `eval_node`. -/
def table : Syn → Option ((Int → Int → Option Int) × Kind)
  | .plus => some (checkedAdd, .overflow)
  | .minus => some (checkedSub, .underflow)
  | .mul => some (checkedMul, .overflow)
  | .div => some (checkedDiv, .divideByZero)
  | .pow => some (pow, .overflow)
  | _ => none

/-- What `eval_node` returns. `none` is a panic, or fuel that has run out. -/
abbrev EvalRes := Option (Except EvalError Int)

mutual
/-- `examples/calculator/eval.rs:59-113` — `eval_node`. -/
def evalNode (nodes : Slice Syn) (source : Text) : Nat → Nat → EvalRes
  | 0, _ => none
  | fuel + 1, node =>
    match nodeValue nodes node, nodeSpan nodes node with
    | some value, some span =>
      match value with
      | .group =>
        match nodeFirst nodes node with
        | none => some (.error ⟨span, .missing .number⟩)
        | some first => evalNode nodes source fuel first
      | .number =>
        match source.get (span.range Flavor.default.ik) with
        | none => none
        | some text =>
          match parseI64 text with
          | none => some (.error ⟨span, .badNumber⟩)
          | some n => some (.ok n)
      | .operation =>
        match SkipTokens.next nodes (Children.next nodes) (nodeChildren nodes node) with
        | (_, .diverge) => none
        | (_, .none) => some (.error ⟨span, .missing .number⟩)
        | (it, .some first) =>
          match evalNode nodes source fuel first with
          | none => none
          | some (.error e) => some (.error e)
          | some (.ok base) => evalOps nodes source fuel span it base
      | what => some (.error ⟨span, .expected .number what⟩)
    | _, _ => none -- a `Node` is inside of the slice
/-- `examples/calculator/eval.rs:85-107` — the loop over the operators of an `Operation`, whose span
is `span`. -/
def evalOps (nodes : Slice Syn) (source : Text) : Nat → Span → Children → Int → EvalRes
  | 0, _, _, _ => none
  | fuel + 1, span, it, base =>
    match SkipTokens.next nodes (Children.next nodes) it with
    | (_, .diverge) => none
    | (_, .none) => some (.ok base)
    | (it, .some op) =>
      match nodeFirst nodes op with
      | none => some (.error ⟨span, .expectedOperator⟩)
      | some op =>
        match nodeValue nodes op, nodeSpan nodes op with
        | some what, some opSpan =>
          match table what with
          | none => some (.error ⟨span, .unexpectedOperator what⟩)
          | some (calculate, error) =>
            match SkipTokens.next nodes (Children.next nodes) it with
            | (_, .diverge) => none
            | (_, .none) => some (.error ⟨span, .missing .number⟩)
            | (it, .some first) =>
              match evalNode nodes source fuel first with
              | none => none
              | some (.error e) => some (.error e)
              | some (.ok b) =>
                match calculate base b with
                | some n => evalOps nodes source fuel span it n
                | none => some (.error ⟨opSpan.join span, error⟩)
        | _, _ => none
end

/-- `examples/calculator/eval.rs:116-129` — `eval`: the results the iterator hands out, in order
(`examples/calculator/main.rs:49-65` takes them all). The recursion has fuel for every node. -/
def eval (t : Tree Syn) (source : Text) : Option (List EvalRes) :=
  forLoop (SkipTokens.next t.nodes (Children.next t.nodes))
    (evalNode t.nodes source (t.nodes.length + 1)) (t.nodes.length + 1) t.children

/-- `examples/calculator/main.rs:38-65` — the results printed by the program for a source. -/
def run (source : Text) : Except Err (Option (List EvalRes)) :=
  match parse source with
  | .error e => .error e
  | .ok t => .ok (eval t source)

end Syntree.Calc
