import Verif.Model.Builder

/-!
# Several builders in one program

Checkpoints are reference counted cells, so they can be handed to another builder, and
`Builder::clone` shares one. A `World` is everything a client program may own: any number of
builders (each with its own flavor), the heap of checkpoint cells and the checkpoints handed out.
Simplification: all builders of a world hold the same type of data.
-/

namespace Syntree

variable {α : Type}

/-- `src/builder.rs:1017-1033` — `Builder::clone`. `tree.clone()` (`src/tree.rs:538-554`) copies the
storage; `checkpoint.clone()` is `Rc::clone`, so that both builders hold the same cell. In the model
a builder is a value and a cell is a number, so the clone is the same value. -/
def Builder.clone (b : Builder α) : Builder α :=
  ⟨⟨b.tree.nodes, b.tree.span, b.tree.indexes, b.tree.first, b.tree.last⟩,
    b.checkpoint, b.parent, b.sibling, b.cursor⟩

/-- Client-side bookkeeping, no Rust counterpart. `handles` is shared by all builders. -/
structure World (α : Type) where
  builders : List (Flavor × Builder α)
  cells : Cells
  handles : List Nat
  deriving DecidableEq, Repr

def World.init : World α := ⟨[], [], []⟩

/-- What a client program can do. -/
inductive WOp (α : Type) where
  /-- make a new builder -/
  | new (fl : Flavor)
  /-- clone builder number `i` -/
  | clone (i : Nat)
  /-- call a method of builder number `i`; checkpoints come from any builder -/
  | call (i : Nat) (op : Op α)
  deriving DecidableEq, Repr

/-- One client step. The result is `none` if the step is not a call (or the builder does not
exist). -/
def World.step (w : World α) : WOp α → World α × Option (Except Err Out)
  | .new fl => ({ w with builders := w.builders ++ [(fl, Builder.new)] }, none)
  | .clone i =>
    match w.builders[i]? with
    | none => (w, none)
    | some (fl, b) => ({ w with builders := w.builders ++ [(fl, b.clone)] }, none)
  | .call i op =>
    match w.builders[i]? with
    | none => (w, none)
    | some (fl, b) =>
      let r := Sys.step fl ⟨b, w.cells, w.handles⟩ op
      (⟨w.builders.set i (fl, r.1.b), r.1.cells, r.1.handles⟩, some r.2)

/-- A whole client program, with the results of its steps. -/
def World.run : World α → List (WOp α) → World α × List (Option (Except Err Out))
  | w, [] => (w, [])
  | w, op :: ops =>
    let r := w.step op
    let r' := World.run r.1 ops
    (r'.1, r.2 :: r'.2)

end Syntree
