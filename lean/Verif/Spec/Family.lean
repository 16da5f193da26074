import Verif.Spec.Clone

/-!
# Programs with any number of builders and clones

In these programs the checkpoints in a call on a builder are numbered as that builder has seen them:
number `n` is the one that was returned by the `n`-th successful `checkpoint()` of the builder, where
the calls made on a builder before it was cloned count for both.
-/

namespace Syntree

variable {α : Type}

/-- What happened to each builder of the program: its flavor, and the calls on it, starting with those
on the builder it was cloned from. -/
def histories (prog : List (WOp α)) : List (Flavor × List (Op α)) :=
  prog.foldl (fun hist op => match op with
    | .new fl => hist ++ [(fl, [])]
    | .clone i => hist ++ hist[i]?.toList
    | .call i op => hist.modify i fun h => (h.1, h.2 ++ [op])) []

/-- The world of the program, for each builder the numbers in the world of the checkpoints it has
seen, and the results of the steps so far. -/
structure Playing (α : Type) where
  world : World α
  own : List (List Nat)
  outs : List (Option (Except Err Out))

/-- One step of the program: the checkpoint in the call is looked up among those of the builder, and
the number in the result is that of the builder. -/
def Playing.step (p : Playing α) : WOp α → Playing α
  | .new fl => ⟨(p.world.step (.new fl)).1, p.own ++ [[]], p.outs ++ [none]⟩
  | .clone i => ⟨(p.world.step (.clone i)).1, p.own ++ p.own[i]?.toList, p.outs ++ [none]⟩
  | .call i op =>
    let ow := p.own[i]?.getD []
    let r := p.world.step (.call i (op.globally ow p.world.handles.length))
    match r.2 with
    | some (.ok (.handle g)) =>
      ⟨r.1, p.own.set i (ow ++ [g]), p.outs ++ [some (.ok (.handle ow.length))]⟩
    | o => ⟨r.1, p.own, p.outs ++ [o]⟩

/-- The whole program. -/
def play (prog : List (WOp α)) : Playing α := prog.foldl Playing.step ⟨World.init, [], []⟩

/-- The builders of the program do not get at each other's checkpoints. `may` are, for each builder,
the checkpoints it may still use: those it returned itself, until it is cloned. When a builder is
cloned, it has made a node since its last `checkpoint()`, and the checkpoints it may use are shared out
(`keep` and `give`, perhaps not all of them): a node was made between one that the builder keeps and
one that the clone gets, and between each of these and the last. -/
inductive Separate : List (WOp α) → List (List Nat) → Prop where
  | start : Separate [] []
  | new {prog may} (fl : Flavor) : Separate prog may → Separate (prog ++ [.new fl]) (may ++ [[]])
  | clone {prog may fl ops m} (i : Nat) (keep give : List Nat) : Separate prog may →
    (histories prog)[i]? = some (fl, ops) → may[i]? = some m →
    Settled fl ops →
    (∀ n, n ∈ keep ∨ n ∈ give → n ∈ m ∧
      MadeBetween (Sys.init.run fl ops).2 n (returned (Sys.init.run fl ops).2 - 1)) →
    (∀ n ∈ keep, ∀ n' ∈ give, MadeBetween (Sys.init.run fl ops).2 n n' ∨
      MadeBetween (Sys.init.run fl ops).2 n' n) →
    Separate (prog ++ [.clone i]) (may.set i keep ++ [give])
  | call {prog may fl ops m} (i : Nat) (op : Op α) : Separate prog may →
    (histories prog)[i]? = some (fl, ops) → may[i]? = some m →
    (∀ n d e, UsesAt op n d e → n ∈ m) →
    Separate (prog ++ [.call i op])
      (may.set i (match ((Sys.init.run fl ops).1.step fl op).2 with
        | .ok (.handle n) => m ++ [n]
        | _ => m))

end Syntree
