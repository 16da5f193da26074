import Verif.Model.Builder
import Verif.Model.Node
import Verif.Model.Edit

/-!
# Counting steps

Most functions of syntree do a fixed number of lookups in the slice of links. The others contain a
loop; here are the numbers of times the body of that loop runs. Each definition follows the control
flow of the function it counts for, whose other model is cited; nothing else is in these functions
that depends on the size of the tree. (The search in the index and the copying of storage that has
to grow are in `std`.)
-/

namespace Syntree

variable {α : Type}

/-- `src/builder.rs:1050-1074` — `restructure_close_at` (model: `restructure`): how many links are
looked up. -/
def restructureSteps (parentId : Nat) : (fuel : Nat) → List (Links α) → (cur : Nat) → Nat
  | 0, _, _ => 0
  | fuel + 1, nodes, cur =>
    match nodes[cur]? with
    | none => 1
    | some links =>
      let nodes := nodes.set cur { links with parent := some parentId }
      match links.next with
      | some next => 1 + restructureSteps parentId fuel nodes next
      | none => 1

/-- `src/builder.rs:735-809` — `close_at`, and `src/builder.rs:842-916` — `close_at_with` (model:
`Builder.closeAtCore`, `reparent`): how many links `restructure_close_at` looks up, if it is
called. -/
def Builder.closeAtSteps (fl : Flavor) (cells : Cells) (b : Builder α) (c : Nat) : Nat :=
  match cells[c]? with
  | none => 0
  | some cell =>
    if cell.parent ≠ b.parent then 0 else
    match ptrNew fl.width b.tree.len with
    | none => 0
    | some newId =>
      match b.tree.nodes[cell.node]? with
      | none => 0
      | some links =>
        let nodes := b.tree.nodes.set cell.node { links with parent := some newId, prev := none }
        match links.next with
        | some next => restructureSteps newId (nodes.length + 1) nodes next
        | none => 0

/-- The same for any call: the other methods of `Builder` (`src/builder.rs:180-629`) have no
loops. -/
def Sys.steps (fl : Flavor) (s : Sys α) : Op α → Nat
  | .closeAt k _ | .closeAtWith k _ _ =>
    match s.handles[k]? with
    | none => 0
    | some c => s.b.closeAtSteps fl s.cells c
  | _ => 0

/-- The steps of a whole history, together. -/
def Sys.runSteps (fl : Flavor) : Sys α → List (Op α) → Nat
  | _, [] => 0
  | s, op :: ops => s.steps fl op + Sys.runSteps fl (s.step fl op).1 ops

/-- `src/node/walk.rs:259-267` — `Walk::next` (model: `Walk.nextLoop`), `src/node/walk.rs:340-349`
— `WithDepths::next`: how often one call calls `WalkEvents::next`, which does one lookup. -/
def Walk.steps (nodes : Slice α) : Nat → WalkEvents → Nat
  | 0, _ => 0
  | fuel + 1, w =>
    match WalkEvents.next nodes w with
    | (_, .none) => 1
    | (_, .diverge) => 1
    | (w, .some (event, _)) => if event ≠ .up then 1 else 1 + Walk.steps nodes fuel w

/-- `src/node/walk.rs:436-448` — `Inside::next` (model: `Inside.nextLoop`). -/
def Inside.steps (nodes : Slice α) : Nat → WalkEvents → Nat
  | 0, _ => 0
  | fuel + 1, w =>
    match WalkEvents.next nodes w with
    | (_, .none) => 1
    | (_, .diverge) => 1
    | (w, .some (event, _)) =>
      let w := if w.depth ≤ 0 then WalkEvents.default else w
      if event ≠ .up then 1 else 1 + Inside.steps nodes fuel w

/-- `src/tree.rs:526-532` — the loop of `node_with_span_internal` (model: `climb`): how often it
looks for a parent. -/
def climbSteps (nodes : Slice α) (stop : Nat) : Nat → Nat → Nat
  | 0, _ => 0
  | fuel + 1, n =>
    match nodeParent nodes n with
    | none => 1
    | some q =>
      match nodeSpan nodes q with
      | none => 1
      | some sp => if sp.stop ≥ stop then 1 else 1 + climbSteps nodes stop fuel q

/-- `src/edit.rs:337-342` — the `while let` loop of `RefactorWalk::step` (model:
`RefactorWalk.ascend`): how many entries of `parents` it takes. -/
def RefactorWalk.ascendSteps (nodes : Slice α) : List (Nat × Nat) → Nat
  | [] => 0
  | (parent, _) :: parents =>
    match nodeNext nodes parent with
    | some _ => 1
    | none => 1 + RefactorWalk.ascendSteps nodes parents

/-- `src/edit.rs:322-345` — `RefactorWalk::step` (model: `RefactorWalk.step`): the same, if it gets
there. -/
def RefactorWalk.stepSteps (nodes : Slice α) (parents : List (Nat × Nat)) (node : Nat) : Nat :=
  match nodeFirst nodes node with
  | some _ => 0
  | none =>
    match nodeNext nodes node with
    | some _ => 0
    | none => RefactorWalk.ascendSteps nodes parents

/-- `src/edit.rs:190-266` — the main loop of `modify` (model: `ModState.loop`): how often its
condition is looked at, and how many rounds the loop of `RefactorWalk::step` takes in all. -/
def ModState.steps (fl : Flavor) (changes : List Nat) (nodes : Slice α) :
    Nat → ModState α → Nat × Nat
  | 0, _ => (0, 0)
  | fuel + 1, st =>
    match st.current with
    | none => (1, 0)
    | some (node, first) =>
      match ptrNew fl.width st.output.len with
      | none => (1, 0)
      | some nodeId =>
        if nodeId ∈ changes then
          match st.refactor.skipSubtree nodes node first with
          | (refactor, none) =>
            let p := ModState.steps fl changes nodes fuel
              { st with refactor := refactor, current := none }
            (1 + p.1, p.2)
          | (refactor, some (node, first)) =>
            match ModState.emit fl nodes { st with refactor := refactor } nodeId node first with
            | .error _ => (1, 0)
            | .ok st =>
              let p := ModState.steps fl changes nodes fuel st
              (1 + p.1, RefactorWalk.stepSteps nodes refactor.parents node + p.2)
        else
          match ModState.emit fl nodes st nodeId node first with
          | .error _ => (1, 0)
          | .ok st' =>
            let p := ModState.steps fl changes nodes fuel st'
            (1 + p.1, RefactorWalk.stepSteps nodes st.refactor.parents node + p.2)

/-- `src/edit.rs:177-270` — `ChangeSet::modify` (model: `ChangeSet.modify`). -/
def ChangeSet.steps (fl : Flavor) (c : ChangeSet) (t : Tree α) : Nat × Nat :=
  ModState.steps fl c.changes t.nodes ((c.changes.length + 1) * (t.nodes.length + 1) + 1)
    ⟨Tree.empty, ⟨[], none⟩, 0, t.firstNode.map (·, false)⟩

end Syntree
