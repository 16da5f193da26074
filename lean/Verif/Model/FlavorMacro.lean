import Verif.Model.Index

/-!
# Model of the macro `flavor!` (`src/flavor.rs:77-109`)

The input is the list of lines `type Key = Type;` between the braces, in the order in which they are
written. Simplifications: documentation, visibility and the name of the struct are left out (they do
not influence the flavor); the types are those that implement one of the crate's traits, and `other`
for a type that implements none of them (storage of the client's own is in `Model/Fault.lean`).
-/

namespace Syntree

/-- The types that can be written. `vec` is `Vec<TreeIndex<Self>>`, `emptyVec` is
`EmptyVec<TreeIndex<Self>>`. -/
inductive Ty where
  | u8 | u16 | u32 | u64 | u128 | usize
  | empty
  | vec | emptyVec
  | other
  deriving DecidableEq, Repr

/-- The names on the left hand side. -/
inductive Key where
  | index | width | storage | indexes | other
  deriving DecidableEq, Repr

/-- What is written between the braces. -/
abbrev Decl := List (Key × Ty)

/-- What the rule has matched. -/
structure Decl.Bound where
  index : Ty
  width : Option Ty
  storage : Option Ty
  indexes : Option Ty
  deriving DecidableEq, Repr

/-- `$(type Key = $ty:ty;)?`: an optional line. -/
def Decl.opt (k : Key) : Decl → Option Ty × Decl
  | (k', ty) :: d => if k' = k then (some ty, d) else (none, (k', ty) :: d)
  | [] => (none, [])

/-- `src/flavor.rs:79-87` — the rule for declarations: `type Index` first, then the optional lines in
this order, and nothing else. `none`: no rule matches, a compile error. -/
def Decl.bound : Decl → Option Decl.Bound
  | (.index, i) :: d =>
    let (w, d) := Decl.opt .width d
    let (s, d) := Decl.opt .storage d
    let (x, d) := Decl.opt .indexes d
    match d with
    | [] => some ⟨i, w, s, x⟩
    | _ :: _ => none
  | _ => none

/-- The implementors of `Index`: `src/index.rs:66-95` (`u32`), `97-126` (`usize`),
`src/empty.rs:31-60` (`Empty`); `word` is the number of bits of `usize`. `none`: the trait is not
implemented, a compile error. -/
def Ty.indexKind (word : Nat) : Ty → Option IndexKind
  | .u32 => some (.bits 32)
  | .usize => some (.bits word)
  | .empty => some .empty
  | _ => none

/-- The implementors of `Width`: `src/pointer.rs:200-205`. -/
def Ty.bits (word : Nat) : Ty → Option Nat
  | .u8 => some 8
  | .u16 => some 16
  | .u32 => some 32
  | .u64 => some 64
  | .u128 => some 128
  | .usize => some word
  | _ => none

/-- The implementors of `Storage<TreeIndex<Self>>` with the error type `Infallible`, and whether they
keep what is pushed: `src/flavor.rs:29-50` (`Vec`, only with the feature `alloc`),
`src/empty.rs:88-106` (`EmptyVec`). -/
def Ty.keeps (alloc : Bool) : Ty → Option Bool
  | .vec => if alloc then some true else none
  | .emptyVec => some false
  | _ => none

/-- A declared flavor: what `Model/Index.lean` knows of it, and whether its node storage keeps what is
pushed. -/
structure Declared where
  fl : Flavor
  keep : Bool
  deriving DecidableEq, Repr

/-- `src/flavor.rs:88-108` — what the declaration expands to, with the feature `alloc` on or off
(`src/lib.rs:406-412`). `none` is a compile error. -/
def Decl.expand (word : Nat) (alloc : Bool) (d : Decl) : Option Declared :=
  match d.bound with
  | none => none
  | some b =>
    -- `type Index = $index`
    match b.index.indexKind word with
    | none => none
    | some ik =>
      -- `@width $ty` and `@width`; `@pointer` likewise
      match (b.width.getD .usize).bits word with
      | none => none
      | some width =>
        -- `@indexes $ty` and `@indexes`: `DefaultIndexes<Self>` is `macro_support::Vec<..>`
        match b.indexes.elim (some alloc) (Ty.keeps alloc) with
        | none => none
        | some keepIdx =>
          -- `type Storage<T> = macro_support::Vec<T>`, whatever `$storage` is
          some ⟨⟨ik, width, keepIdx⟩, alloc⟩

/-- `src/flavor.rs:111-119` — the declaration of `FlavorDefault`. -/
def Decl.default : Decl := [(.index, .u32), (.width, .usize)]

end Syntree
