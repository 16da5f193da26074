import Verif.Model.World
import Verif.Spec.History

/-! # Programs in which every builder uses its own checkpoints -/

namespace Syntree

variable {α : Type}

/-- In a program where every builder only uses the checkpoints it returned itself, `close_at` with
number `n` means the `n`-th of these. `own` are their numbers among all checkpoints; `no` is a
number that was never handed out. -/
def Op.globally (own : List Nat) (no : Nat) : Op α → Op α
  | .closeAt n d => .closeAt (own[n]?.getD no) d
  | .closeAtWith n d sp => .closeAtWith (own[n]?.getD no) d sp
  | op => op

/-- Run a program in which every builder only uses checkpoints returned by itself since the start.
`own j` are the checkpoints returned by builder `j` so far; both in the calls and in the results
they are numbered per builder. The results come with the number of the builder that was called. -/
def World.runOwn : World α → (Nat → List Nat) → List (Nat × Op α) →
    World α × List (Nat × Option (Except Err Out))
  | w, _, [] => (w, [])
  | w, own, (j, op) :: calls =>
    let r := w.step (.call j (op.globally (own j) w.handles.length))
    let (own, o) := match r.2 with
      | some (.ok (.handle g)) =>
        (fun m => if m = j then own j ++ [g] else own m, some (.ok (.handle (own j).length)))
      | o => (own, o)
    let r' := World.runOwn r.1 own calls
    (r'.1, (j, o) :: r'.2)

/-- The calls (or the results of the calls) on builder `j`. -/
def onBuilder {β : Type} (j : Nat) (l : List (Nat × β)) : List β :=
  l.filterMap fun p => if p.1 = j then some p.2 else none

/-- The history of a builder has made a node after its last `checkpoint()` call, or it has no such
call. -/
def Settled (fl : Flavor) (ops : List (Op α)) : Prop :=
  ∃ pre mid, ops = pre ++ mid ∧ (∀ op ∈ mid, op ≠ .checkpoint) ∧
    (pre = [] ∨ ∃ o ∈ (Sys.init.run fl ops).2.drop pre.length, (idOf o).isSome)

end Syntree

namespace Syntree

/-- By the results of its calls, a builder has made a node after it returned checkpoint `g` and
before it returned checkpoint `g'`. -/
def MadeBetween (os : List (Except Err Out)) (g g' : Nat) : Prop :=
  ∃ (p q r : Nat) (o : Except Err Out), p < q ∧ q < r ∧ os[p]? = some (.ok (.handle g)) ∧
    os[q]? = some o ∧ (idOf o).isSome ∧ os[r]? = some (.ok (.handle g'))

/-- The checkpoints a builder has returned, by its results. -/
def returned (os : List (Except Err Out)) : Nat :=
  (os.filter fun o => match o with | .ok (.handle _) => true | _ => false).length

end Syntree
