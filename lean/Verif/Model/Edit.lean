import Verif.Model.Node

/-!
# Model of `src/edit.rs`
-/

namespace Syntree

variable {α : Type}

/-- `src/edit.rs:76-84` — `ChangeSet`. The only change is `Change::Delete`, so the `HashMap` is the
collection of its keys; `trees` is unused. -/
structure ChangeSet where
  changes : List Nat
  deriving DecidableEq, Repr

/-- `src/edit.rs:93-95`, `278-284` — `ChangeSet::new`. -/
def ChangeSet.new : ChangeSet := ⟨[]⟩

/-- `src/edit.rs:136-138` — `ChangeSet::remove`. -/
def ChangeSet.remove (c : ChangeSet) (id : Nat) : ChangeSet := ⟨id :: c.changes⟩

/-- `src/edit.rs:297-304` — `RefactorWalk`. The top of the stack `parents` is the head; an entry
is the input node and its id in the output. -/
structure RefactorWalk where
  parents : List (Nat × Nat)
  prev : Option Nat
  deriving DecidableEq, Repr

/-- `src/edit.rs:311-319` — `skip_subtree`. -/
def RefactorWalk.skipSubtree (nodes : Slice α) (r : RefactorWalk) (node : Nat) (first : Bool) :
    RefactorWalk × Option (Nat × Bool) :=
  match nodeNext nodes node with
  | some next => (r, some (next, first))
  | none =>
    match r.parents with
    | [] => (r, none)
    | (node, parentId) :: parents => (⟨parents, some parentId⟩, some (node, false))

/-- `src/edit.rs:337-342` — the `while let` loop of `step`. -/
def RefactorWalk.ascend (nodes : Slice α) (prev : Option Nat) :
    List (Nat × Nat) → RefactorWalk × Option (Nat × Bool)
  | [] => (⟨[], prev⟩, none)
  | (parent, prevId) :: parents =>
    match nodeNext nodes parent with
    | some next => (⟨parents, some prevId⟩, some (next, false))
    | none => RefactorWalk.ascend nodes prev parents

/-- `src/edit.rs:322-345` — `step`. -/
def RefactorWalk.step (nodes : Slice α) (r : RefactorWalk) (node nodeId : Nat) :
    RefactorWalk × Option (Nat × Bool) :=
  match nodeFirst nodes node with
  | some next => ({ r with parents := (node, nodeId) :: r.parents }, some (next, true))
  | none =>
    match nodeNext nodes node with
    | some next => ({ r with prev := some nodeId }, some (next, false))
    | none => RefactorWalk.ascend nodes r.prev r.parents

/-- The local variables of `modify` at the head of its loop. -/
structure ModState (α : Type) where
  output : Tree α
  refactor : RefactorWalk
  cursor : Nat
  current : Option (Nat × Bool)
  deriving DecidableEq, Repr

/-- `src/edit.rs:206-265` — the loop body after the change set has been consulted: emit `node` as
output node `nodeId`. -/
def ModState.emit (fl : Flavor) (nodes : Slice α) (st : ModState α) (nodeId node : Nat)
    (first : Bool) : Except Err (ModState α) :=
  match nodes[node]? with
  | none => .error (.missingNode node) -- a `Node` is always inside of its slice
  | some links =>
    let out := st.output
    let out := if st.refactor.parents.isEmpty then
        { out with
          first := if out.first.isNone then some nodeId else out.first
          last := some nodeId }
      else out
    -- `let prev = if first { None } else { .. refactor.prev.take() .. }`
    let (out, refactor, prev) :=
      if first then (out, st.refactor, none)
      else
        (out.modifyOpt st.refactor.prev (fun l => { l with next := some nodeId }),
          { st.refactor with prev := none }, st.refactor.prev)
    let spanR : Except Err (Tree α × Nat × Span) :=
      if links.first.isNone && ! links.span.isEmpty then
        let out := out.pushIndex fl ⟨st.cursor, nodeId⟩
        match fl.ik.checkedAddLen st.cursor (links.span.len fl.ik) with
        | none => .error .overflow
        | some c => .ok (out, c, Span.new st.cursor c)
      else .ok (out, st.cursor, Span.point st.cursor)
    match spanR with
    | .error e => .error e
    | .ok (out, cursor, span) =>
      let parent := refactor.parents.head?.map (·.2)
      let out := out.modifyOpt parent (fun p =>
        { p with
          first := if p.first.isNone then some nodeId else p.first
          last := some nodeId
          span := { p.span with stop := span.stop } })
      let out := out.push
        { data := links.data, span := span, parent := parent, prev := prev, next := none,
          first := none, last := none }
      let (refactor, current) := refactor.step nodes node nodeId
      .ok ⟨out, refactor, cursor, current⟩

/-- `src/edit.rs:190-266` — the main loop of `modify`. -/
def ModState.loop (fl : Flavor) (changes : List Nat) (nodes : Slice α) :
    Nat → ModState α → Except Err (ModState α)
  | 0, _ => .error .diverge
  | fuel + 1, st =>
    match st.current with
    | none => .ok st
    | some (node, first) =>
      match ptrNew fl.width st.output.len with
      | none => .error .overflow
      | some nodeId =>
        if nodeId ∈ changes then
          match st.refactor.skipSubtree nodes node first with
          | (refactor, none) =>
            ModState.loop fl changes nodes fuel { st with refactor := refactor, current := none }
          | (refactor, some (node, first)) =>
            match ModState.emit fl nodes { st with refactor := refactor } nodeId node first with
            | .error e => .error e
            | .ok st => ModState.loop fl changes nodes fuel st
        else
          match ModState.emit fl nodes st nodeId node first with
          | .error e => .error e
          | .ok st => ModState.loop fl changes nodes fuel st

/-- `src/edit.rs:177-270` — `ChangeSet::modify`. -/
def ChangeSet.modify (fl : Flavor) (c : ChangeSet) (t : Tree α) : Except Err (Tree α) :=
  let st : ModState α :=
    ⟨Tree.empty, ⟨[], none⟩, 0, t.firstNode.map (·, false)⟩
  match ModState.loop fl c.changes t.nodes ((c.changes.length + 1) * (t.nodes.length + 1) + 1) st with
  | .error e => .error e
  | .ok st => .ok { st.output with span := { st.output.span with stop := st.cursor } }

end Syntree
