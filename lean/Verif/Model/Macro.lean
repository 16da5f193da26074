import Verif.Model.Builder

/-!
# Model of `src/macros.rs`: `tree!` and `tree_with!`

What is modelled here is the literal after parsing (which of the macro's rules the
tokens match is in `Model/MacroRules.lean`) and the calls the expansion makes, each followed by `?`.
-/

namespace Syntree

variable {α : Type}

/-- `src/macros.rs:51-104` — the input of the macro: a list of items separated by commas. An item is
`expr => { .. }`, `(expr, (start, end)) => { .. }`, `(expr, len)`, `expr` or
`(expr, (start, end))`. -/
inductive Lit (α : Type) where
  | nil
  | node (d : α) (kids rest : Lit α)
  | nodeWith (d : α) (sp : Span) (kids rest : Lit α)
  | token (d : α) (len : Nat) (rest : Lit α)
  | tokenEmpty (d : α) (rest : Lit α)
  | tokenWith (d : α) (sp : Span) (rest : Lit α)
  deriving DecidableEq, Repr

/-- `src/macros.rs:51-104` — the calls the `@o` rules expand to, in order. -/
def Lit.calls : Lit α → List (Op α)
  | .nil => []
  | .node d k r => .open d :: (k.calls ++ .close :: r.calls)
  | .nodeWith d sp k r => .openWith d sp :: (k.calls ++ .close :: r.calls)
  | .token d n r => .token d n :: r.calls
  | .tokenEmpty d r => .tokenEmpty d :: r.calls
  | .tokenWith d sp r => .tokenWith d sp :: r.calls

/-- `call()?; call()?; ..`: the first error ends the sequence of calls. -/
def Sys.tryRun (fl : Flavor) : Sys α → List (Op α) → Except Err (Sys α)
  | s, [] => .ok s
  | s, op :: ops =>
    match s.step fl op with
    | (s, .ok _) => Sys.tryRun fl s ops
    | (_, .error e) => .error e

/-- `src/macros.rs:106-110` (`tree!`) and `src/macros.rs:150-154` (`tree_with!`). -/
def Lit.tree (fl : Flavor) (lit : Lit α) : Except Err (Tree α) :=
  match Sys.init.tryRun fl lit.calls with
  | .error e => .error e
  | .ok s => s.b.build

end Syntree
