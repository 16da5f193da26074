import Verif.Model.Calc

/-!
# The stack of the calculator

`Model/Calc.lean` lets `expr` and `eval_node` recurse as deep as they like. Here a number `d` of
frames is given: a call that would be the `d + 1`st nested call of the function ends the run (with
`Err.diverge` or `none`, values that no Rust code returns), as a stack that overflows does. Everything
else is as in `Model/Calc.lean`; the fuel is there for the loops.
-/

namespace Syntree.Calc

mutual
/-- `examples/calculator/grammar.rs:18-66` — `expr`, with `d` frames left on the stack. -/
def exprIn : Nat → Nat → Nat → P Unit
  | 0, _, _ => fun _ => .error .diverge
  | _ + 1, 0, _ => fun _ => .error .diverge
  | fuel + 1, d + 1, min => do
    let tok ← peek
    let c ← checkpoint
    let go ← (match tok.syn with
      | .openParen => do
        token
        let c ← checkpoint
        exprIn fuel d 0
        let _ ← call (.closeAt c .group)
        let closed ← eat .closeParen
        if !closed then do
          bump .error
          pure false
        else pure true
      | .number => do
        bump .number
        pure true
      | _ => do
        bump .error
        pure false : P Bool)
    if go then do
      let operation ← exprLoopIn fuel d min false
      if operation then do
        let _ ← call (.closeAt c .operation)
        pure ()
      else pure ()
    else pure ()
/-- `examples/calculator/grammar.rs:48-59` — the loop of `expr`, with `d` frames left for the calls
it makes. -/
def exprLoopIn : Nat → Nat → Nat → Bool → P Bool
  | 0, _, _, _ => fun _ => .error .diverge
  | fuel + 1, d, min, operation => do
    let tok ← peek
    match op tok.syn with
    | some (left, right) =>
      if left ≥ min then do
        bump .operator
        exprIn fuel d right
        exprLoopIn fuel d min true
      else pure operation
    | none => pure operation
end

/-- `examples/calculator/grammar.rs:70-82` — the loop of `root`, with `d` frames for `expr`. -/
def rootLoopIn (d : Nat) : Nat → P Unit
  | 0 => fun _ => .error .diverge
  | fuel + 1 => do
    (fun p => exprIn (fuelFor p) d 0 p)
    let eof ← isEof
    if eof then pure ()
    else do
      let c ← checkpoint
      advanceUntil [.number]
      let _ ← call (.closeAt c .error)
      rootLoopIn d fuel

/-- `examples/calculator/main.rs:41-44` — parse the source and build the tree, with `d` frames for
`expr`. -/
def parseIn (d : Nat) (source : Text) : Except Err (Tree Syn) :=
  match rootLoopIn d (source.length + 1) (Parser.new source) with
  | .error e => .error e
  | .ok (_, p) => p.tree.b.build

mutual
/-- `examples/calculator/eval.rs:59-113` — `eval_node`, with `d` frames left. A `Group` is left by
`continue`, in the same frame. -/
def evalNodeIn (nodes : Slice Syn) (source : Text) : Nat → Nat → Nat → EvalRes
  | 0, _, _ => none
  | _ + 1, 0, _ => none
  | fuel + 1, d + 1, node =>
    match nodeValue nodes node, nodeSpan nodes node with
    | some value, some span =>
      match value with
      | .group =>
        match nodeFirst nodes node with
        | none => some (.error ⟨span, .missing .number⟩)
        | some first => evalNodeIn nodes source fuel (d + 1) first
      | .number =>
        match source.get (span.range Flavor.default.ik) with
        | none => none
        | some text =>
          match parseI64 text with
          | none => some (.error ⟨span, .badNumber⟩)
          | some n => some (.ok n)
      | .operation =>
        match SkipTokens.next nodes (Children.next nodes) (nodeChildren nodes node) with
        | (_, .diverge) => none
        | (_, .none) => some (.error ⟨span, .missing .number⟩)
        | (it, .some first) =>
          match evalNodeIn nodes source fuel d first with
          | none => none
          | some (.error e) => some (.error e)
          | some (.ok base) => evalOpsIn nodes source fuel d span it base
      | what => some (.error ⟨span, .expected .number what⟩)
    | _, _ => none -- a `Node` is inside of the slice
/-- `examples/calculator/eval.rs:85-107` — the loop over the operators of an `Operation`, with `d`
frames left for the calls it makes. -/
def evalOpsIn (nodes : Slice Syn) (source : Text) : Nat → Nat → Span → Children → Int → EvalRes
  | 0, _, _, _, _ => none
  | fuel + 1, d, span, it, base =>
    match SkipTokens.next nodes (Children.next nodes) it with
    | (_, .diverge) => none
    | (_, .none) => some (.ok base)
    | (it, .some op) =>
      match nodeFirst nodes op with
      | none => some (.error ⟨span, .expectedOperator⟩)
      | some op =>
        match nodeValue nodes op, nodeSpan nodes op with
        | some what, some opSpan =>
          match table what with
          | none => some (.error ⟨span, .unexpectedOperator what⟩)
          | some (calculate, error) =>
            match SkipTokens.next nodes (Children.next nodes) it with
            | (_, .diverge) => none
            | (_, .none) => some (.error ⟨span, .missing .number⟩)
            | (it, .some first) =>
              match evalNodeIn nodes source fuel d first with
              | none => none
              | some (.error e) => some (.error e)
              | some (.ok b) =>
                match calculate base b with
                | some n => evalOpsIn nodes source fuel d span it n
                | none => some (.error ⟨opSpan.join span, error⟩)
        | _, _ => none
end

/-- `examples/calculator/eval.rs:116-129` — `eval`, with `d` frames for `eval_node`. -/
def evalIn (d : Nat) (t : Tree Syn) (source : Text) : Option (List EvalRes) :=
  forLoop (SkipTokens.next t.nodes (Children.next t.nodes))
    (evalNodeIn t.nodes source (t.nodes.length + 1) d) (t.nodes.length + 1) t.children

end Syntree.Calc
