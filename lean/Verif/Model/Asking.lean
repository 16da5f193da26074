import Verif.Model.Node

/-!
# Predicates that remember

`find_preceding`, `SkipTokens::find` and `SkipTokens::rfind` take an `FnMut`: a predicate that may
change its captured state whenever it is called. Here a predicate is a function from its state
(of any type `μ`) and the node to the new state and the answer, and each function also returns the
state the predicate is left with. The state may contain anything the closure can reach, also the
values in the tree (which `Node::replace` can change); the links, which are what the functions
below follow, cannot be changed by a closure.
-/

namespace Syntree

variable {α : Type} {μ : Type}

/-- `Iterator::find` (the default method of `core::iter::Iterator`) with an `FnMut`. -/
def findLoopWith {σ β : Type} (next : NextFn σ β) (p : μ → β → μ × Bool) :
    Nat → μ → σ → μ × σ × Got β
  | 0, m, s => (m, s, .diverge)
  | fuel + 1, m, s =>
    match next s with
    | (s, .none) => (m, s, .none)
    | (s, .diverge) => (m, s, .diverge)
    | (s, .some x) =>
      match p m x with
      | (m, true) => (m, s, .some x)
      | (m, false) => findLoopWith next p fuel m s

/-- `src/node/skip_tokens.rs:103-109` — `SkipTokens::find`: `move |n| n.has_children() &&
predicate(n)`, so the predicate is not called for a node without children. -/
def SkipTokens.findWith {σ : Type} (nodes : Slice α) (next : NextFn σ Nat)
    (p : μ → Nat → μ × Bool) (m : μ) (s : σ) : μ × σ × Got Nat :=
  findLoopWith next (fun m n => if hasChildren nodes n then p m n else (m, false))
    (nodes.length + 1) m s

/-- `src/node/skip_tokens.rs:124-130` — `SkipTokens::rfind`: the same with `next_back`. -/
def SkipTokens.rfindWith {σ : Type} (nodes : Slice α) (nextBack : NextFn σ Nat)
    (p : μ → Nat → μ × Bool) (m : μ) (s : σ) : μ × σ × Got Nat :=
  findLoopWith nextBack (fun m n => if hasChildren nodes n then p m n else (m, false))
    (nodes.length + 1) m s

/-- `src/node/node_impl.rs:440-453` — step 1 of `find_preceding`. -/
def findPrecedingUpWith (nodes : Slice α) (p : μ → Nat → μ × Bool) : Nat → μ → Nat → μ × Got Nat
  | 0, m, _ => (m, .diverge)
  | fuel + 1, m, n =>
    match nodePrev nodes n with
    | none =>
      match nodeParent nodes n with
      | none => (m, .none)
      | some q => findPrecedingUpWith nodes p fuel m q
    | some prev =>
      match p m prev with
      | (m, true) => (m, .some prev)
      | (m, false) =>
        match nodeParent nodes n with
        | none => (m, .none)
        | some q => findPrecedingUpWith nodes p fuel m q

/-- `src/node/node_impl.rs:455-466` — step 2 of `find_preceding`. -/
def findPrecedingDownWith (nodes : Slice α) (p : μ → Nat → μ × Bool) :
    Nat → μ → Nat → μ × Got Nat
  | 0, m, _ => (m, .diverge)
  | fuel + 1, m, n =>
    match nodeLast nodes n with
    | none => (m, .some n)
    | some last =>
      match p m last with
      | (m, false) => (m, .some n)
      | (m, true) => findPrecedingDownWith nodes p fuel m last

/-- `src/node/node_impl.rs:435-467` — `find_preceding`. -/
def findPrecedingWith (nodes : Slice α) (p : μ → Nat → μ × Bool) (m : μ) (n : Nat) :
    μ × Got Nat :=
  match findPrecedingUpWith nodes p (nodes.length + 1) m n with
  | (m, .some b) => findPrecedingDownWith nodes p (nodes.length + 1) m b
  | r => r

end Syntree
