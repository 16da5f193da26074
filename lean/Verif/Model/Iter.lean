/-!
# Iterators

Common vocabulary for the iterator structs of `src/node/*.rs` and the default methods of
`core::iter::Iterator` that syntree calls on them.
-/

namespace Syntree

/-- Result of one call of an iterator method: `Option<Item>` of Rust, plus `diverge`, which is not
a Rust value: it is the outcome of a loop of the model that has used up its fuel. The theorems
show that it does not occur. -/
inductive Got (β : Type) where
  | none
  | some (x : β)
  | diverge
  deriving DecidableEq, Repr

/-- A Rust `Option` as a `Got`. -/
def Got.ofOption {β : Type} : Option β → Got β
  | Option.none => .none
  | Option.some x => .some x

def Got.map {β γ : Type} (f : β → γ) : Got β → Got γ
  | .none => .none
  | .some x => .some (f x)
  | .diverge => .diverge

/-- The `next` method of an iterator whose state is `σ` and whose items are `β`. -/
abbrev NextFn (σ β : Type) := σ → σ × Got β

/-- `Yields next s l`: calling `next` again and again from state `s` returns exactly the items of
`l`, in order, and then `None`. In particular iteration terminates. -/
inductive Yields {σ β : Type} (next : NextFn σ β) : σ → List β → Prop where
  | done {s s' : σ} : next s = (s', .none) → Yields next s []
  | item {s s' : σ} {x : β} {l : List β} :
      next s = (s', .some x) → Yields next s' l → Yields next s (x :: l)

/-- `Iterator::find` (the default method of `core::iter::Iterator`), with fuel. -/
def findLoop {σ β : Type} (next : NextFn σ β) (p : β → Bool) : Nat → NextFn σ β
  | 0, s => (s, .diverge)
  | fuel + 1, s =>
    match next s with
    | (s, .none) => (s, .none)
    | (s, .diverge) => (s, .diverge)
    | (s, .some x) => if p x then (s, .some x) else findLoop next p fuel s

/-- `Iterator::eq` (the default method of `core::iter::Iterator`), with fuel; `none` is
divergence. -/
def iterEq {σ τ β γ : Type} (next : NextFn σ β) (next' : NextFn τ γ) (eq : β → γ → Bool) :
    Nat → σ → τ → Option Bool
  | 0, _, _ => none
  | fuel + 1, s, t =>
    match next s with
    | (_, .diverge) => none
    | (_, .none) =>
      match next' t with
      | (_, .diverge) => none
      | (_, .none) => some true
      | (_, .some _) => some false
    | (s, .some x) =>
      match next' t with
      | (_, .diverge) => none
      | (_, .none) => some false
      | (t, .some y) => if eq x y then iterEq next next' eq fuel s t else some false

/-- `for x in iter { .. }` collecting what the body produces, with fuel; `none` is divergence. -/
def forLoop {σ β γ : Type} (next : NextFn σ β) (body : β → γ) : Nat → σ → Option (List γ)
  | 0, _ => none
  | fuel + 1, s =>
    match next s with
    | (_, .diverge) => none
    | (_, .none) => some []
    | (s, .some x) => (forLoop next body fuel s).map (body x :: ·)

end Syntree
