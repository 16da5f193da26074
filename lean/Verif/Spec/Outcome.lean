import Verif.Model.World

/-!
# Specification of the results of calls, for every use of checkpoints

Nothing here depends on how the nodes are linked: the result of a call is determined by the number
of nodes made so far, the node being built, the cursor, and what the checkpoint passed in holds.
-/

namespace Syntree

variable {α : Type}

/-- What a call that creates one node returns: the next id, or `Overflow` if all `2 ^ width - 1`
pointers are used up. -/
def newNode (fl : Flavor) (len : Nat) : Except Err Out :=
  if len < 2 ^ fl.width - 1 then .ok (.id len) else .error .overflow

/-- What `close_at` and `close_at_with` return for the checkpoint `k`. -/
def expectedCloseAt (fl : Flavor) (s : Sys α) (k : Nat) : Except Err Out :=
  match s.handles[k]? with
  | none => .ok .unit
  | some c =>
    match s.cells[c]? with
    | none => .error .closeAtError
    | some cell =>
      if cell.parent ≠ s.b.parent then .error .closeAtError
      else if s.b.tree.len < 2 ^ fl.width - 1 ∧ s.b.tree.len < cell.node then
        .error (.missingNode s.b.tree.len)
      else newNode fl s.b.tree.len

/-- What a call returns. -/
def expected (fl : Flavor) (s : Sys α) : Op α → Except Err Out
  | .open _ | .openWith _ _ | .tokenEmpty _ | .tokenWith _ _ => newNode fl s.b.tree.len
  | .close => if s.b.parent = none then .error .closeError else .ok .unit
  | .token _ n =>
    if fl.ik.lenIsEmpty n = false ∧ fl.ik.checkedAddLen s.b.cursor n = none then .error .overflow
    else newNode fl s.b.tree.len
  | .checkpoint =>
    if s.b.tree.len < 2 ^ fl.width - 1 then .ok (.handle s.handles.length) else .error .overflow
  | .closeAt k _ | .closeAtWith k _ _ => expectedCloseAt fl s k
  | .setCursor _ => .ok .unit

/-- The number of nodes a call adds, judged by its result alone. A `close_at` that fails with
`MissingNode` has added a node all the same. -/
def nodesAdded : Except Err Out → Nat
  | .ok (.id _) => 1
  | .error (.missingNode _) => 1
  | _ => 0

/-- The number of open nodes after a call, judged by its result alone: a successful `open` opens
one, a successful `close` closes one. -/
def depthAfter (depth : Nat) : Op α → Except Err Out → Nat
  | .open _, .ok _ => depth + 1
  | .openWith _ _, .ok _ => depth + 1
  | .close, .ok _ => depth - 1
  | _, _ => depth

/-- The number of open nodes of every builder of a world after a sequence of steps with their
results. -/
def worldDepths : List Nat → List (WOp α) → List (Option (Except Err Out)) → List Nat
  | ds, .new _ :: ops, _ :: os => worldDepths (ds ++ [0]) ops os
  | ds, .clone i :: ops, _ :: os =>
    match ds[i]? with
    | none => worldDepths ds ops os
    | some d => worldDepths (ds ++ [d]) ops os
  | ds, .call i op :: ops, some o :: os =>
    worldDepths (ds.modify i fun d => depthAfter d op o) ops os
  | ds, .call _ _ :: ops, none :: os => worldDepths ds ops os
  | ds, _, _ => ds

end Syntree
