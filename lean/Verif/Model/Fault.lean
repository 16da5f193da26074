import Verif.Model.World
import Verif.Model.Edit

/-!
# Storage that can fail

`Storage` (`src/flavor.rs:9-28`) is a public trait: a flavor can bring its own storage for nodes and
for the index, whose `push` may fail; the error comes out of the builder as `Error::Flavor`. The
other model files assume storage that never fails (`Vec`). This file models the builder methods and
`ChangeSet::modify` with failing storage.

Assumption about the storage, in the spirit of the trait: if `push` fails, the elements already
stored are unchanged; otherwise the element is added at the end. Which `push` fails is left open.
-/

namespace Syntree

variable {α : Type}

/-- Which pushes fail: does attempt number `k` (counted from 0, failed attempts included), on a
storage that holds `len` elements, fail? For `node` storage, for `index` storage, and for
`with_capacity(c)`. -/
structure Faults where
  node : (k len : Nat) → Bool
  index : (k len : Nat) → Bool
  reserve : (c : Nat) → Bool

/-- Storage that never fails. -/
def Faults.none : Faults := ⟨fun _ _ => false, fun _ _ => false, fun _ => false⟩

/-- Storage with a fixed capacity: the node storage holds at most `n` elements, the index at most
`m`. -/
def Faults.capacity (n m : Nat) : Faults :=
  ⟨fun _ len => decide (n ≤ len), fun _ len => decide (m ≤ len), fun _ => false⟩

/-- `src/error.rs:7-123` — `Error` with `Flavor(E)`. What the error of the storage says is left
out. -/
inductive FErr where
  | base (e : Err)
  | flavor
  deriving DecidableEq, Repr

/-- Number of attempts made so far to push a node and to push an index entry. -/
structure Tries where
  node : Nat
  index : Nat
  deriving DecidableEq, Repr

/-- A builder and the history of its storage. -/
structure FBuilder (α : Type) where
  b : Builder α
  tries : Tries
  deriving DecidableEq, Repr

abbrev FRes (α β : Type) := FBuilder α × Except FErr β

/-- `src/tree.rs:252-254` — `Tree::push`: `none` if the storage fails. -/
def Tree.pushF (ft : Faults) (k : Nat) (t : Tree α) (l : Links α) : Option (Tree α) :=
  if ft.node k t.nodes.length then none else some (t.push l)

/-- `src/builder.rs:424`, `498` — `indexes_mut().push(..)`: `none` if the storage fails. `EmptyVec`
(`src/empty.rs:93-95`) never does. -/
def Tree.pushIndexF (fl : Flavor) (ft : Faults) (k : Nat) (t : Tree α) (i : TreeIndex) :
    Option (Tree α) :=
  if fl.keepIdx && ft.index k t.indexes.length then none else some (t.pushIndex fl i)

/-- `src/builder.rs:975-1014` — `Builder::insert`. The sibling is taken before the push. -/
def FBuilder.insert (fl : Flavor) (ft : Faults) (s : FBuilder α) (data : α) (span : Span) :
    FRes α Nat :=
  match ptrNew fl.width s.b.tree.len with
  | none => (s, .error (.base .overflow))
  | some new =>
    let b := s.b
    let prev := b.sibling
    let tries := { s.tries with node := s.tries.node + 1 }
    match b.tree.pushF ft s.tries.node
      { data := data, span := span, parent := b.parent, prev := prev,
        next := none, first := none, last := none } with
    | none => (⟨{ b with sibling := none }, tries⟩, .error .flavor)
    | some t =>
      let t := match b.parent with
        | some id => t.modifyNode id (Links.addChild new span)
        | none => t.addRoot new
      let t := t.modifyOpt prev (fun l => { l with next := some new })
      (⟨{ b with tree := t, sibling := none }, tries⟩, .ok new)

/-- `src/builder.rs:323-331` — `open_with`. -/
def FBuilder.openWith (fl : Flavor) (ft : Faults) (s : FBuilder α) (data : α) (span : Span) :
    FRes α Nat :=
  match s.insert fl ft data span with
  | (s, .error e) => (s, .error e)
  | (s, .ok id) => ({ s with b := { s.b with parent := some id } }, .ok id)

/-- `src/builder.rs:274-278` — `open`. -/
def FBuilder.open (fl : Flavor) (ft : Faults) (s : FBuilder α) (data : α) : FRes α Nat :=
  s.openWith fl ft data (Span.point s.b.cursor)

/-- `src/builder.rs:359-381` — `close` does not push. -/
def FBuilder.close (s : FBuilder α) : FRes α Unit :=
  ({ s with b := s.b.close.1 }, s.b.close.2.mapError .base)

/-- `src/builder.rs:412-431` — `token`. -/
def FBuilder.token (fl : Flavor) (ft : Faults) (s : FBuilder α) (value : α) (len : Nat) :
    FRes α Nat :=
  let start := s.b.cursor
  let adv : Option (Builder α) :=
    if fl.ik.lenIsEmpty len then some s.b
    else match fl.ik.checkedAddLen s.b.cursor len with
      | none => none
      | some c => some { s.b with
          cursor := c, tree := { s.b.tree with span := { s.b.tree.span with stop := c } } }
  match adv with
  | none => (s, .error (.base .overflow))
  | some b =>
    match FBuilder.insert fl ft { s with b := b } value (Span.new start b.cursor) with
    | (s, .error e) => (s, .error e)
    | (s, .ok id) =>
      let b := { s.b with sibling := some id }
      if fl.ik.lenIsEmpty len then ({ s with b := b }, .ok id)
      else
        let tries := { s.tries with index := s.tries.index + 1 }
        match b.tree.pushIndexF fl ft s.tries.index ⟨b.cursor, id⟩ with
        | none => (⟨b, tries⟩, .error .flavor)
        | some t => (⟨{ b with tree := t }, tries⟩, .ok id)

/-- `src/builder.rs:540-542` — `token_empty`. -/
def FBuilder.tokenEmpty (fl : Flavor) (ft : Faults) (s : FBuilder α) (value : α) : FRes α Nat :=
  s.token fl ft value 0

/-- `src/builder.rs:490-509` — `token_with`: the index is pushed before the span of the parent and
the cursor are updated. -/
def FBuilder.tokenWith (fl : Flavor) (ft : Faults) (s : FBuilder α) (value : α) (span : Span) :
    FRes α Nat :=
  match s.insert fl ft value span with
  | (s, .error e) => (s, .error e)
  | (s, .ok id) =>
    let b := { s.b with sibling := some id }
    let tries := { s.tries with index := s.tries.index + 1 }
    match b.tree.pushIndexF fl ft s.tries.index ⟨span.start, id⟩ with
    | none => (⟨b, tries⟩, .error .flavor)
    | some t =>
      let t := t.modifyOpt b.parent (fun p => { p with span := p.span.join span })
      (⟨{ b with tree := t, cursor := span.stop }, tries⟩, .ok id)

/-- `src/builder.rs:617-629` — `checkpoint` does not push. -/
def FBuilder.mkCheckpoint (fl : Flavor) (cells : Cells) (s : FBuilder α) : Cells × FRes α Nat :=
  let r := s.b.mkCheckpoint fl cells
  (r.1, { s with b := r.2.1 }, r.2.2.mapError .base)

/-- `src/builder.rs:773-794` (`880-901` of `close_at_with`) — the links that `close_at` changes
before the push of the new node. -/
def Tree.relinkOnly (t : Tree α) (id newId : Nat) (parent prev : Option Nat) : Tree α :=
  let t := t.modifyOpt parent (fun p =>
    { p with
      first := if p.first = some id then some newId else p.first
      last := if p.last = some id then some newId else p.last })
  let t := t.modifyOpt prev (fun p => { p with next := some newId })
  { t with first := if t.first = some id then some newId else t.first }

/-- `src/builder.rs:735-809` — `close_at`, and `src/builder.rs:842-916` — `close_at_with`. All links
to the new node are made before the push (`796`, `903`) that may fail. -/
def FBuilder.closeAtCore (fl : Flavor) (ft : Faults) (cells : Cells) (s : FBuilder α) (c : Nat)
    (data : α) (explicit : Option Span) : Cells × FRes α Nat :=
  match cells[c]? with
  | none => (cells, s, .error (.base .closeAtError))
  | some cell =>
    let id := cell.node
    let b := s.b
    if cell.parent ≠ b.parent then (cells, s, .error (.base .closeAtError)) else
    match ptrNew fl.width b.tree.len with
    | none => (cells, s, .error (.base .overflow))
    | some newId =>
      match b.tree.nodes[id]? with
      | none =>
        match s.insert fl ft data (explicit.getD (Span.point b.cursor)) with
        | (s, .error e) => (cells, s, .error e)
        | (s, .ok newId) =>
          if newId ≠ id then (cells, s, .error (.base (.missingNode newId)))
          else (cells, { s with b := { s.b with sibling := some newId } }, .ok newId)
      | some links =>
        match reparent newId id links b.tree.nodes with
        | (nodes, .error e) =>
          (cells, { s with b := { b with tree := { b.tree with nodes := nodes } } },
            .error (.base e))
        | (nodes, .ok (last, span)) =>
          let t := { b.tree with nodes := nodes }
          let t := t.relinkOnly id newId links.parent links.prev
          let tries := { s.tries with node := s.tries.node + 1 }
          match t.pushF ft s.tries.node
            { data := data, span := explicit.getD span, prev := links.prev,
              parent := links.parent, next := none, first := some id, last := some last } with
          | none => (cells, ⟨{ b with tree := t }, tries⟩, .error .flavor)
          | some t =>
            (cells.set c ⟨newId, links.parent⟩, ⟨{ b with tree := t, sibling := some newId }, tries⟩,
              .ok newId)

/-- A builder with its storage, the heap of checkpoint cells and the checkpoints handed out so far.
Client-side bookkeeping, no Rust counterpart. -/
structure FSys (α : Type) where
  f : FBuilder α
  cells : Cells
  handles : List Nat
  deriving DecidableEq, Repr

def FSys.init : FSys α := ⟨⟨Builder.new, ⟨0, 0⟩⟩, [], []⟩

/-- The client state without the history of the storage. -/
def FSys.plain (s : FSys α) : Sys α := ⟨s.f.b, s.cells, s.handles⟩

def FSys.lift {β : Type} (s : FSys α) (g : β → Out) (r : FRes α β) : FSys α × Except FErr Out :=
  ({ s with f := r.1 }, r.2.map g)

/-- One client call. -/
def FSys.step (fl : Flavor) (ft : Faults) (s : FSys α) : Op α → FSys α × Except FErr Out
  | .open d => s.lift .id (s.f.open fl ft d)
  | .openWith d sp => s.lift .id (s.f.openWith fl ft d sp)
  | .close => s.lift (fun _ => .unit) s.f.close
  | .token d n => s.lift .id (s.f.token fl ft d n)
  | .tokenEmpty d => s.lift .id (s.f.tokenEmpty fl ft d)
  | .tokenWith d sp => s.lift .id (s.f.tokenWith fl ft d sp)
  | .checkpoint =>
    match s.f.mkCheckpoint fl s.cells with
    | (cells, f, .ok c) => (⟨f, cells, s.handles ++ [c]⟩, .ok (.handle s.handles.length))
    | (cells, f, .error e) => ({ s with f := f, cells := cells }, .error e)
  | .closeAt k d =>
    match s.handles[k]? with
    | none => (s, .ok .unit)
    | some c =>
      let r := s.f.closeAtCore fl ft s.cells c d none
      ({ s with f := r.2.1, cells := r.1 }, r.2.2.map .id)
  | .closeAtWith k d sp =>
    match s.handles[k]? with
    | none => (s, .ok .unit)
    | some c =>
      let r := s.f.closeAtCore fl ft s.cells c d (some sp)
      ({ s with f := r.2.1, cells := r.1 }, r.2.2.map .id)
  | .setCursor i => ({ s with f := { s.f with b := s.f.b.setCursor i } }, .ok .unit)

/-- A whole history, with the list of results. -/
def FSys.run (fl : Flavor) (ft : Faults) : FSys α → List (Op α) → FSys α × List (Except FErr Out)
  | s, [] => (s, [])
  | s, op :: ops =>
    let (s, o) := s.step fl ft op
    let (s, os) := FSys.run fl ft s ops
    (s, o :: os)

/-! ## `ChangeSet::modify` -/

/-- `src/edit.rs:229-265` — the second part of the loop body of `modify` with failing storage, after
the tree, the stack and the previous sibling have been updated to `q`. The index is pushed before the
node. -/
def ModState.emitRestF (fl : Flavor) (ft : Faults) (nodes : Slice α) (cursor : Nat) (tr : Tries)
    (links : Links α) (nodeId node : Nat) (q : Tree α × RefactorWalk × Option Nat) :
    Except FErr (ModState α × Tries) :=
  let (out, refactor, prev) := q
  let spanR : Except FErr (Tree α × Nat × Span × Tries) :=
    if links.first.isNone && ! links.span.isEmpty then
      match out.pushIndexF fl ft tr.index ⟨cursor, nodeId⟩ with
      | none => .error .flavor
      | some out =>
        match fl.ik.checkedAddLen cursor (links.span.len fl.ik) with
        | none => .error (.base .overflow)
        | some c => .ok (out, c, Span.new cursor c, { tr with index := tr.index + 1 })
    else .ok (out, cursor, Span.point cursor, tr)
  match spanR with
  | .error e => .error e
  | .ok (out, cursor, span, tr) =>
    let parent := refactor.parents.head?.map (·.2)
    let out := out.modifyOpt parent (fun p =>
      { p with
        first := if p.first.isNone then some nodeId else p.first
        last := some nodeId
        span := { p.span with stop := span.stop } })
    match out.pushF ft tr.node
      { data := links.data, span := span, parent := parent, prev := prev, next := none,
        first := none, last := none } with
    | none => .error .flavor
    | some out =>
      let (refactor, current) := refactor.step nodes node nodeId
      .ok (⟨out, refactor, cursor, current⟩, { tr with node := tr.node + 1 })

/-- `src/edit.rs:206-265` — the loop body of `modify` with failing storage. -/
def ModState.emitF (fl : Flavor) (ft : Faults) (nodes : Slice α) (st : ModState α) (tr : Tries)
    (nodeId node : Nat) (first : Bool) : Except FErr (ModState α × Tries) :=
  match nodes[node]? with
  | none => .error (.base (.missingNode node))
  | some links =>
    let out := st.output
    let out := if st.refactor.parents.isEmpty then
        { out with
          first := if out.first.isNone then some nodeId else out.first
          last := some nodeId }
      else out
    ModState.emitRestF fl ft nodes st.cursor tr links nodeId node
      (if first then (out, st.refactor, none)
      else
        (out.modifyOpt st.refactor.prev (fun l => { l with next := some nodeId }),
          { st.refactor with prev := none }, st.refactor.prev))

/-- `src/edit.rs:190-266` — the main loop of `modify` with failing storage. -/
def ModState.loopF (fl : Flavor) (ft : Faults) (changes : List Nat) (nodes : Slice α) :
    Nat → ModState α → Tries → Except FErr (ModState α)
  | 0, _, _ => .error (.base .diverge)
  | fuel + 1, st, tr =>
    match st.current with
    | none => .ok st
    | some (node, first) =>
      match ptrNew fl.width st.output.len with
      | none => .error (.base .overflow)
      | some nodeId =>
        if nodeId ∈ changes then
          match st.refactor.skipSubtree nodes node first with
          | (refactor, none) =>
            ModState.loopF fl ft changes nodes fuel
              { st with refactor := refactor, current := none } tr
          | (refactor, some (node, first)) =>
            match ModState.emitF fl ft nodes { st with refactor := refactor } tr nodeId node first with
            | .error e => .error e
            | .ok (st, tr) => ModState.loopF fl ft changes nodes fuel st tr
        else
          match ModState.emitF fl ft nodes st tr nodeId node first with
          | .error e => .error e
          | .ok (st, tr) => ModState.loopF fl ft changes nodes fuel st tr

/-- `src/edit.rs:177-270` — `ChangeSet::modify` with failing storage. `Tree::with_capacity`
(`src/tree.rs:64-72`) reserves for the nodes; `capacity` stands for `tree.capacity()`, which may be
anything. -/
def ChangeSet.modifyF (fl : Flavor) (ft : Faults) (capacity : Nat) (c : ChangeSet) (t : Tree α) :
    Except FErr (Tree α) :=
  if ft.reserve capacity then .error .flavor else
  let st : ModState α :=
    ⟨Tree.empty, ⟨[], none⟩, 0, t.firstNode.map (·, false)⟩
  match ModState.loopF fl ft c.changes t.nodes
    ((c.changes.length + 1) * (t.nodes.length + 1) + 1) st ⟨0, 0⟩ with
  | .error e => .error e
  | .ok st => .ok { st.output with span := { st.output.span with stop := st.cursor } }

end Syntree
