import Verif.Model.Pointer
import Verif.Model.Index

/-!
# Model of `src/links.rs`, `src/error.rs`, `src/index.rs` (`TreeIndex`) and the storage part of
`src/tree.rs`
-/

namespace Syntree

/-- `src/links.rs:8-27` — `Links`. `data` is a `Cell<T>`; its content is the field. -/
structure Links (α : Type) where
  data : α
  span : Span
  parent : Option Nat
  prev : Option Nat
  next : Option Nat
  first : Option Nat
  last : Option Nat
  deriving DecidableEq, Repr

/-- `src/index.rs:129-137` — `TreeIndex`. -/
structure TreeIndex where
  index : Nat
  id : Nat
  deriving DecidableEq, Repr

/-- `src/error.rs:7-123` — `Error`. `Flavor(E)` is left out: `E` is `Infallible` for every flavor
made by `flavor!` (`src/flavor.rs:93`). `diverge` is not in the Rust code: it is the outcome of
a loop of the model that has used up its fuel (proved unreachable). -/
inductive Err where
  | closeError
  | buildError
  | closeAtError
  | overflow
  | missingNode (id : Nat)
  | diverge
  deriving DecidableEq, Repr

/-- `src/tree.rs:27-44` — `Tree`. -/
structure Tree (α : Type) where
  nodes : List (Links α)
  span : Span
  indexes : List TreeIndex
  first : Option Nat
  last : Option Nat
  deriving DecidableEq, Repr

variable {α : Type}

/-- `src/tree.rs:52-60` — `Tree::new_with` (and `src/tree.rs:64-72`, `with_capacity`: capacity is
not modelled). -/
def Tree.empty : Tree α := ⟨[], Span.point 0, [], none, none⟩

/-- `src/tree.rs:131-133` — `Tree::len`. -/
def Tree.len (t : Tree α) : Nat := t.nodes.length

/-- `src/tree.rs:146-148` — `Tree::is_empty`. -/
def Tree.isEmpty (t : Tree α) : Bool := t.nodes.isEmpty

/-- `if let Some(x) = tree.get_mut(id) { .. }` with `src/tree.rs:244-249` (`get_mut`) and
`src/tree.rs:262-267` (`links_at_mut`): apply `f` to the links of node `id` if it exists. -/
def Tree.modifyNode (t : Tree α) (id : Nat) (f : Links α → Links α) : Tree α :=
  { t with nodes := t.nodes.modify id f }

/-- The same through an optional pointer: `opt.and_then(|id| tree.get_mut(id))`. -/
def Tree.modifyOpt (t : Tree α) (id : Option Nat) (f : Links α → Links α) : Tree α :=
  match id with
  | some id => t.modifyNode id f
  | none => t

/-- `src/tree.rs:252-254` — `Tree::push`; `Vec::push` never fails (`src/flavor.rs:46-49`). -/
def Tree.push (t : Tree α) (l : Links α) : Tree α := { t with nodes := t.nodes ++ [l] }

/-- `src/tree.rs:257-259` — `indexes_mut().push(..)`. With `EmptyVec` (`src/empty.rs:93-95`)
pushing is a no-op. -/
def Tree.pushIndex (fl : Flavor) (t : Tree α) (i : TreeIndex) : Tree α :=
  if fl.keepIdx then { t with indexes := t.indexes ++ [i] } else t

end Syntree
