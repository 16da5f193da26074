/-!
# Model of `src/index.rs`, `src/empty.rs`, `src/span.rs`, `src/flavor.rs`
-/

namespace Syntree

/-- The implementors of the sealed trait `Index` (`src/index.rs:7-13`): `u32` is `bits 32`,
`usize` is `bits` of the target's word size, `Empty` (`src/empty.rs:31-60`) is `empty`.
Simplification: an index value is a `Nat`; the only value of `Empty` is `0`. -/
inductive IndexKind where
  | bits (w : Nat)
  | empty
  deriving DecidableEq, Repr

/-- `src/index.rs:54-61` (`Length for usize`) and `src/empty.rs:69-76` (`Length for Empty`):
`Length::is_empty`. -/
def IndexKind.lenIsEmpty : IndexKind → Nat → Bool
  | .bits _, len => len == 0
  | .empty, _ => true

/-- `Index::checked_add_len`: `src/index.rs:82-84` (`u32`: `u32::try_from(other).ok()?` then
`u32::checked_add`), `src/index.rs:113-115` (`usize`), `src/empty.rs:47-49` (`Empty`).
Both integer cases succeed iff the exact sum fits in `w` bits. Simplification: the length is an
unbounded `Nat` instead of a `usize`. -/
def IndexKind.checkedAddLen : IndexKind → Nat → Nat → Option Nat
  | .bits w, i, len => if i + len < 2 ^ w then some (i + len) else none
  | .empty, _, _ => some 0

/-- `Index::len_to`: `src/index.rs:87-89`, `118-120` (`other.saturating_sub(self)`, which is
truncated subtraction on `Nat`), `src/empty.rs:52-54`. -/
def IndexKind.lenTo : IndexKind → Nat → Nat → Nat
  | .bits _, i, other => other - i
  | .empty, _, _ => 0

/-- `Index::from_usize`: `src/index.rs:92-94` (`u32::try_from(value).ok()`), `123-125`
(`Some(value)`; every `usize` fits), `src/empty.rs:57-59`. -/
def IndexKind.fromUsize : IndexKind → Nat → Option Nat
  | .bits w, v => if v < 2 ^ w then some v else none
  | .empty, _ => some 0

/-- `Index::as_usize`: `src/index.rs:77-79`, `108-110`, `src/empty.rs:42-44`. -/
def IndexKind.asUsize : IndexKind → Nat → Nat
  | .bits _, i => i
  | .empty, _ => 0

/-- `src/flavor.rs:133-148` — the parts of a `Flavor` that influence behaviour: the index kind,
the pointer width in bits, and whether `Indexes` is a real `Vec` (`keepIdx`) or the always empty
`EmptyVec` (`src/empty.rs:79-122`). -/
structure Flavor where
  ik : IndexKind
  width : Nat
  keepIdx : Bool
  deriving DecidableEq, Repr

/-- `src/flavor.rs:111-119` — `FlavorDefault`: `u32` index, `usize` width (64 bits here). -/
def Flavor.default : Flavor := ⟨.bits 32, 64, true⟩

/-- `src/span.rs:8-15` — `Span { start, end }` (`stop` is the Rust field `end`). -/
structure Span where
  start : Nat
  stop : Nat
  deriving DecidableEq, Repr

/-- `src/span.rs:40-42` — `Span::new`. -/
def Span.new (start stop : Nat) : Span := ⟨start, stop⟩

/-- `src/span.rs:54-59` — `Span::point`. -/
def Span.point (i : Nat) : Span := ⟨i, i⟩

/-- `src/span.rs:79-87` — `Span::join`. -/
def Span.join (a b : Span) : Span := ⟨min a.start b.start, max a.stop b.stop⟩

/-- `src/span.rs:101-106` — `Span::is_empty`. -/
def Span.isEmpty (a : Span) : Bool := a.stop == a.start

/-- `src/span.rs:121-127` — `Span::contains`. -/
def Span.contains (a : Span) (i : Nat) : Bool := a.start ≤ i && i < a.stop

/-- `src/span.rs:146-148` — `Span::range`. -/
def Span.range (ik : IndexKind) (a : Span) : Nat × Nat := (ik.asUsize a.start, ik.asUsize a.stop)

/-- `src/span.rs:162-164` — `Span::len`. -/
def Span.len (ik : IndexKind) (a : Span) : Nat := ik.lenTo a.start a.stop

end Syntree
