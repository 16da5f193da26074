/-!
# Model of `src/pointer.rs`

A pointer of width `w` is a `NonZero` unsigned integer of `w` bits holding `value + 1`.
-/

namespace Syntree

/-- `src/pointer.rs:92` — `pub struct $e($non_zero)`: the raw, non-zero, `w`-bit value. -/
structure RawPtr (w : Nat) where
  raw : Nat
  deriving DecidableEq, Repr

/-- The invariant of the `NonZero` wrapper (`src/pointer.rs:92`): non-zero and in range. -/
def RawPtr.Valid {w : Nat} (p : RawPtr w) : Prop := 0 < p.raw ∧ p.raw < 2 ^ w

/-- `src/pointer.rs:112-115` — `$e::new`:
`<$ty>::try_from(value).ok()?` followed by `$non_zero::new(value.wrapping_add(1))`. -/
def RawPtr.new (w : Nat) (value : Nat) : Option (RawPtr w) :=
  -- `<$ty>::try_from(value).ok()?`
  if value < 2 ^ w then
    -- `value.wrapping_add(1)`
    let v := (value + 1) % 2 ^ w
    -- `$non_zero::new(..).map(Self)`
    if v = 0 then none else some ⟨v⟩
  else none

/-- `src/pointer.rs:132-134` — `$e::get`: `self.0.get().wrapping_sub(1) as usize`,
with `usz` the number of bits of `usize` (the cast truncates). -/
def RawPtr.get {w : Nat} (usz : Nat) (p : RawPtr w) : Nat :=
  ((p.raw + (2 ^ w - 1)) % 2 ^ w) % 2 ^ usz

/-- `src/pointer.rs:157-160` — `new_unchecked`: `value as $ty` truncates, then `wrapping_add(1)`.
The result is only a legal `NonZero` if the caller's safety obligation holds. -/
def RawPtr.newUnchecked (w : Nat) (value : Nat) : RawPtr w :=
  ⟨(value % 2 ^ w + 1) % 2 ^ w⟩

/-- `src/pointer.rs:184-188` — `Default::default`. -/
def RawPtr.default (w : Nat) : RawPtr w := ⟨1⟩

/-- `F::Pointer::new(self.tree.len())` as used by `src/builder.rs:618,746,854,976` and
`src/edit.rs:191`. In the tree model a pointer is represented by the value its `get()` returns
(simplification, justified by the theorems of property C45: `get` after `new` is the identity
and `get` is injective on valid pointers). The length of a `Vec` is always representable as
`usize`, so the truncating cast of `get` is the identity. -/
def ptrNew (w : Nat) (value : Nat) : Option Nat :=
  (RawPtr.new w value).map (fun p => (p.raw + (2 ^ w - 1)) % 2 ^ w)

/-- `src/node/node_impl.rs:508-518` — `Node::id`: `base` is the address of the slice of links, `size`
the size of an element and `current` the address of the links of the node. -/
def idFromAddress (w base size current : Nat) : RawPtr w :=
  RawPtr.newUnchecked w ((current - base) / size)

end Syntree
