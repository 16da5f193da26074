import Verif.Model.Asking

/-!
# Comparing trees with the `PartialEq` of the values

`PartialEq for Tree` and for `Node` (`Model/Node.lean`) take the values to be compared by a decidable
equality. The code only asks for `T: PartialEq`, that is a method that may answer anything (a
floating point number that is not a number is not equal to itself) and may have effects of its own.
Here it is a function from its state (of any type `μ`) and two values to the new state and the
answer.
-/

namespace Syntree

variable {α : Type} {μ : Type}

/-- `Iterator::eq` (the default method of `core::iter::Iterator`), where comparing two items may
have effects. -/
def iterEqWith {σ τ β γ : Type} (next : NextFn σ β) (next' : NextFn τ γ)
    (eq : μ → β → γ → μ × Bool) : Nat → μ → σ → τ → μ × Option Bool
  | 0, m, _, _ => (m, none)
  | fuel + 1, m, s, t =>
    match next s with
    | (_, .diverge) => (m, none)
    | (_, .none) =>
      match next' t with
      | (_, .diverge) => (m, none)
      | (_, .none) => (m, some true)
      | (_, .some _) => (m, some false)
    | (s, .some x) =>
      match next' t with
      | (_, .diverge) => (m, none)
      | (_, .none) => (m, some false)
      | (t, .some y) =>
        match eq m x y with
        | (m, true) => iterEqWith next next' eq fuel m s t
        | (m, false) => (m, some false)

/-- `src/node/node_impl.rs:590-599` — `PartialEq for Node`: the values first, then the spans. -/
def nodeEqWith (p : μ → α → α → μ × Bool) (m : μ) (nodes : Slice α) (n : Nat) (nodes' : Slice α)
    (n' : Nat) : μ × Bool :=
  match nodes[n]?, nodes'[n']? with
  | some l, some l' =>
    match p m l.data l'.data with
    | (m, true) => (m, l.span == l'.span)
    | (m, false) => (m, false)
  | _, _ => (m, false)

/-- `src/tree.rs:567-598` — `PartialEq for Tree`: the depths first (`Item`), then the nodes. -/
def Tree.eqWith (p : μ → α → α → μ × Bool) (m : μ) (t t' : Tree α) : μ × Option Bool :=
  iterEqWith (WithDepths.next t.nodes) (WithDepths.next t'.nodes)
    (fun m x y => if x.1 == y.1 then nodeEqWith p m t.nodes x.2 t'.nodes y.2 else (m, false))
    (t.nodes.length + 1) m t.walk t'.walk

/-- The same for a `PartialEq` without effects. -/
def Tree.eqBy (r : α → α → Bool) (t t' : Tree α) : Option Bool :=
  (t.eqWith (fun (_ : Unit) a b => ((), r a b)) () t').2

end Syntree
