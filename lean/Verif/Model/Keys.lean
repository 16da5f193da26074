import Verif.Model.Node
import Verif.Model.Pointer

/-!
# Model of comparing and hashing spans of any type of index, pointers and events

`Span<I>` is declared for every type `I` (`src/span.rs:8-15`); comparing and hashing spans calls the
impls for `I`, which are arbitrary code and are parameters here. A `Hasher` is a state with a
function that takes in a number: `σ → κ → σ`, where `κ` is what is written.
-/

namespace Syntree

/-- `src/span.rs:10-15` — `Span<I>` for any `I`. -/
structure SpanOf (ι : Type) where
  start : ι
  stop : ι
  deriving DecidableEq, Repr

/-- `src/span.rs:17-24` — `PartialEq<Span<A>> for Span<B>`; `eq` is `B: PartialEq<A>`. -/
def SpanOf.eq {ι κ : Type} (eq : ι → κ → Bool) (a : SpanOf ι) (b : SpanOf κ) : Bool :=
  eq a.start b.start && eq a.stop b.stop

/-- `src/span.rs:187-195` — `PartialEq<&Span<I>> for Span<I>`. (References are not told from what
they refer to.) -/
def SpanOf.eqRef {ι : Type} (eq : ι → ι → Bool) (a b : SpanOf ι) : Bool := a.eq eq b

/-- `src/span.rs:197-205` — `PartialEq<Span<I>> for &Span<I>`. -/
def SpanOf.refEq {ι : Type} (eq : ι → ι → Bool) (a b : SpanOf ι) : Bool := a.eq eq b

/-- `src/span.rs:8` — the derived `Ord`: the fields in the order of their declaration. -/
def SpanOf.cmp {ι : Type} (cmp : ι → ι → Ordering) (a b : SpanOf ι) : Ordering :=
  match cmp a.start b.start with
  | .eq => cmp a.stop b.stop
  | o => o

/-- `src/span.rs:8` — the derived `Hash`: the fields in the order of their declaration. -/
def SpanOf.hash {ι σ : Type} (hash : ι → σ → σ) (a : SpanOf ι) (s : σ) : σ :=
  hash a.stop (hash a.start s)

/-- `src/pointer.rs:90-92` — the derived `Hash` of a pointer: that of the `NonZero`, which writes
the number it holds. -/
def RawPtr.hash {w : Nat} {σ : Type} (write : σ → Nat → σ) (p : RawPtr w) (s : σ) : σ :=
  write s p.raw

/-- `src/pointer.rs:90-92` — the derived `Ord` of a pointer: that of the `NonZero`. -/
def RawPtr.cmp {w : Nat} (p q : RawPtr w) : Ordering := compare p.raw q.raw

end Syntree
