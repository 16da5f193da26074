import Verif.Model.Print

/-!
# Model of `src/error.rs` and of the comparisons of `src/span.rs`
-/

namespace Syntree

/-- `src/span.rs:17-24` — `PartialEq<Span<A>> for Span<B>`; the impls for references
(`src/span.rs:187-205`) forward to it. -/
def Span.eqSpan (a b : Span) : Bool := a.start == b.start && a.stop == b.stop

/-- `src/span.rs:8` — the derived `Ord`: the fields are compared in the order they are declared,
`src/span.rs:10-15`. (`PartialOrd` is derived too, and gives the same.) -/
def Span.cmp (a b : Span) : Ordering :=
  match compare a.start b.start with
  | .eq => compare a.stop b.stop
  | o => o

/-- `src/error.rs:4-123` — `Error<E>`, with the error `E` of the flavor. -/
inductive Failure (ε : Type) where
  | closeError
  | buildError
  | closeAtError
  | overflow
  | missingNode (id : Nat)
  | flavor (e : ε)
  deriving DecidableEq, Repr

variable {ε : Type}

/-- `src/error.rs:125-130` — `From<E> for Error<E>`, which `?` uses on the results of a storage. -/
def Failure.from (e : ε) : Failure ε := .flavor e

/-- `src/error.rs:132-143` — `source`. -/
def Failure.source : Failure ε → Option ε
  | .flavor e => some e
  | _ => none

/-- `src/error.rs:145-172` — `Display for Error`. `showPtr` is `Display` of `usize`, `showError`
that of the flavor's error. -/
def Failure.display (showPtr : Nat → String) (showError : ε → String) : Failure ε → String
  | .closeError => "no node being built"
  | .buildError => "tree is currently being built"
  | .closeAtError =>
    "trying to close a node which is not a sibling of the checkpoint being closed"
  | .overflow => "numerical overflow"
  | .missingNode p => "missing node with id `" ++ showPtr p ++ "`"
  | .flavor e => showError e

end Syntree
