import Verif.Model.Tree

/-!
# Model of `src/builder.rs` and `src/builder/checkpoint.rs`

Every method takes the builder (and, for checkpoints, the heap of checkpoint cells) and returns
the new one together with `Ok`/`Err`. A method that fails after partial mutation returns the
partially mutated builder, as in Rust.
-/

namespace Syntree

variable {α : Type}

/-- `src/builder/checkpoint.rs:47-52` — `Inner`: the content of a checkpoint cell. -/
structure Cell where
  node : Nat
  parent : Option Nat
  deriving DecidableEq, Repr

/-- The heap of `Rc<Cell<Inner>>` (`src/builder/checkpoint.rs:15`). A `Checkpoint` value is the
number of its cell, so that cloning a checkpoint aliases it. -/
abbrev Cells := List Cell

/-- `src/builder.rs:54-71` — `Builder`. -/
structure Builder (α : Type) where
  tree : Tree α
  checkpoint : Option Nat
  parent : Option Nat
  sibling : Option Nat
  cursor : Nat
  deriving DecidableEq, Repr

/-- Result of a method: the builder afterwards, and `Ok` or `Err`. -/
abbrev Res (α β : Type) := Builder α × Except Err β

/-- `src/builder.rs:168-176` — `Builder::new_with` (`new` and `default` are the same). -/
def Builder.new : Builder α := ⟨Tree.empty, none, none, none, 0⟩

/-- `src/builder.rs:242-244` — `set_cursor`. -/
def Builder.setCursor (b : Builder α) (i : Nat) : Builder α := { b with cursor := i }

/-- `src/builder.rs:991-998` — what `insert` does to the parent's links. -/
def Links.addChild (new : Nat) (span : Span) (l : Links α) : Links α :=
  { l with
    first := if l.first.isNone then some new else l.first
    last := some new
    span := { l.span with stop := span.stop } }

/-- `src/builder.rs:1000-1006` — what `insert` does to the root links (`tree.links_mut()`). -/
def Tree.addRoot (t : Tree α) (new : Nat) : Tree α :=
  { t with
    first := if t.first.isNone then some new else t.first
    last := some new }

/-- `src/builder.rs:975-1014` — `Builder::insert`. -/
def Builder.insert (fl : Flavor) (b : Builder α) (data : α) (span : Span) : Res α Nat :=
  match ptrNew fl.width b.tree.len with
  | none => (b, .error .overflow)
  | some new =>
    -- `let prev = self.sibling.take();`
    let prev := b.sibling
    let t := b.tree.push
      { data := data, span := span, parent := b.parent, prev := prev,
        next := none, first := none, last := none }
    let t := match b.parent with
      | some id => t.modifyNode id (Links.addChild new span)
      | none => t.addRoot new
    -- `if let Some(node) = prev.and_then(..) { node.next = Some(new); }`
    let t := t.modifyOpt prev (fun l => { l with next := some new })
    ({ b with tree := t, sibling := none }, .ok new)

/-- `src/builder.rs:323-331` — `open_with`. -/
def Builder.openWith (fl : Flavor) (b : Builder α) (data : α) (span : Span) : Res α Nat :=
  match b.insert fl data span with
  | (b, .error e) => (b, .error e)
  | (b, .ok id) => ({ b with parent := some id }, .ok id)

/-- `src/builder.rs:274-278` — `open`. -/
def Builder.open (fl : Flavor) (b : Builder α) (data : α) : Res α Nat :=
  b.openWith fl data (Span.point b.cursor)

/-- `src/builder.rs:359-381` — `close`. -/
def Builder.close (b : Builder α) : Res α Unit :=
  match b.parent with
  | none => (b, .error .closeError)
  | some head =>
    -- `self.parent.take()` and `self.sibling = Some(head)` happen before the fallible lookups
    let b := { b with parent := none, sibling := some head }
    match b.tree.nodes[head]? with
    | none => (b, .error (.missingNode head))
    | some links =>
      match links.parent with
      | some id =>
        if id < b.tree.len then
          let t := b.tree.modifyNode id (fun p => { p with span := p.span.join links.span })
          ({ b with tree := t, parent := some id, cursor := links.span.stop }, .ok ())
        else (b, .error (.missingNode id))
      | none => ({ b with cursor := links.span.stop }, .ok ())

/-- `src/builder.rs:412-431` — `token`. The cursor and the tree span are advanced *before* the
fallible `insert`. -/
def Builder.token (fl : Flavor) (b : Builder α) (value : α) (len : Nat) : Res α Nat :=
  let start := b.cursor
  let adv : Option (Builder α) :=
    if fl.ik.lenIsEmpty len then some b
    else match fl.ik.checkedAddLen b.cursor len with
      | none => none
      | some c => some { b with
          cursor := c, tree := { b.tree with span := { b.tree.span with stop := c } } }
  match adv with
  | none => (b, .error .overflow)
  | some b =>
    match b.insert fl value (Span.new start b.cursor) with
    | (b, .error e) => (b, .error e)
    | (b, .ok id) =>
      let b := { b with sibling := some id }
      if fl.ik.lenIsEmpty len then (b, .ok id)
      else ({ b with tree := b.tree.pushIndex fl ⟨b.cursor, id⟩ }, .ok id)

/-- `src/builder.rs:540-542` — `token_empty`. -/
def Builder.tokenEmpty (fl : Flavor) (b : Builder α) (value : α) : Res α Nat :=
  b.token fl value 0

/-- `src/builder.rs:490-509` — `token_with`. -/
def Builder.tokenWith (fl : Flavor) (b : Builder α) (value : α) (span : Span) : Res α Nat :=
  match b.insert fl value span with
  | (b, .error e) => (b, .error e)
  | (b, .ok id) =>
    let t := b.tree.pushIndex fl ⟨span.start, id⟩
    let t := t.modifyOpt b.parent (fun p => { p with span := p.span.join span })
    ({ b with sibling := some id, tree := t, cursor := span.stop }, .ok id)

/-- `src/builder.rs:617-629` — `checkpoint`. Returns the heap, the builder and the cell number. -/
def Builder.mkCheckpoint (fl : Flavor) (cells : Cells) (b : Builder α) :
    Cells × Res α Nat :=
  match ptrNew fl.width b.tree.len with
  | none => (cells, b, .error .overflow)
  | some node =>
    let fresh : Cells × Res α Nat :=
      (cells ++ [⟨node, b.parent⟩],
        { b with checkpoint := some cells.length }, .ok cells.length)
    match b.checkpoint with
    | none => fresh
    | some c =>
      match cells[c]? with
      | some cell =>
        if cell.node = node ∧ cell.parent = b.parent then (cells, b, .ok c) else fresh
      | none => fresh

/-- `src/builder.rs:1050-1074` — `restructure_close_at`: re-parent `cur` and everything after it
in the sibling chain; result is the last node of the chain and the end of its span. Both the code
before the loop and the loop body are one iteration here. -/
def restructure (parentId : Nat) :
    (fuel : Nat) → List (Links α) → (cur : Nat) → List (Links α) × Except Err (Nat × Nat)
  | 0, nodes, _ => (nodes, .error .diverge)
  | fuel + 1, nodes, cur =>
    match nodes[cur]? with
    | none => (nodes, .error (.missingNode cur))
    | some links =>
      let nodes := nodes.set cur { links with parent := some parentId }
      match links.next with
      | some next => restructure parentId fuel nodes next
      | none => (nodes, .ok (cur, links.span.stop))

/-- `src/builder.rs:759-771` — the middle part of `close_at` (and `src/builder.rs:867-878` of
`close_at_with`): `links` (the links of node `id`) has its parent replaced by `newId` and its
`prev` taken, then the following siblings are re-parented. The result is the last node of the
chain and the span from the start of the first to the end of the last one. -/
def reparent (newId id : Nat) (links : Links α) (nodes : List (Links α)) :
    List (Links α) × Except Err (Nat × Span) :=
  let nodes := nodes.set id { links with parent := some newId, prev := none }
  match links.next with
  | some next =>
    match restructure newId (nodes.length + 1) nodes next with
    | (nodes, .error e) => (nodes, .error e)
    | (nodes, .ok (last, stop)) => (nodes, .ok (last, Span.new links.span.start stop))
  | none => (nodes, .ok (id, links.span))

/-- `src/builder.rs:773-804` (`880-911` of `close_at_with`) — put `newId` in the place of `id`
in the links of its parent, of its previous sibling and of the tree (only the *first* root link
is looked at), and push its own links. -/
def Tree.relink (t : Tree α) (id newId : Nat) (parent prev : Option Nat) (new : Links α) :
    Tree α :=
  let t := t.modifyOpt parent (fun p =>
    { p with
      first := if p.first = some id then some newId else p.first
      last := if p.last = some id then some newId else p.last })
  let t := t.modifyOpt prev (fun p => { p with next := some newId })
  let t := { t with first := if t.first = some id then some newId else t.first }
  t.push new

/-- `src/builder.rs:735-809` — `close_at`, and `src/builder.rs:842-916` — `close_at_with`. The two
functions have the same body except for the span of the new node: `explicit = none` is
`close_at`, `explicit = some span` is `close_at_with`. -/
def Builder.closeAtCore (fl : Flavor) (cells : Cells) (b : Builder α) (c : Nat) (data : α)
    (explicit : Option Span) : Cells × Res α Nat :=
  match cells[c]? with
  | none => (cells, b, .error .closeAtError) -- a checkpoint value always has a cell
  | some cell =>
    let id := cell.node
    if cell.parent ≠ b.parent then (cells, b, .error .closeAtError) else
    match ptrNew fl.width b.tree.len with
    | none => (cells, b, .error .overflow)
    | some newId =>
      match b.tree.nodes[id]? with
      | none =>
        match b.insert fl data (explicit.getD (Span.point b.cursor)) with
        | (b, .error e) => (cells, b, .error e)
        | (b, .ok newId) =>
          if newId ≠ id then (cells, b, .error (.missingNode newId))
          else (cells, { b with sibling := some newId }, .ok newId)
      | some links =>
        match reparent newId id links b.tree.nodes with
        | (nodes, .error e) => (cells, { b with tree := { b.tree with nodes := nodes } }, .error e)
        | (nodes, .ok (last, span)) =>
          let t := { b.tree with nodes := nodes }
          let t := t.relink id newId links.parent links.prev
            { data := data, span := explicit.getD span, prev := links.prev,
              parent := links.parent, next := none, first := some id, last := some last }
          (cells.set c ⟨newId, links.parent⟩, { b with tree := t, sibling := some newId },
            .ok newId)

/-- `src/builder.rs:735-739` — `close_at`. -/
def Builder.closeAt (fl : Flavor) (cells : Cells) (b : Builder α) (c : Nat) (data : α) :
    Cells × Res α Nat :=
  b.closeAtCore fl cells c data none

/-- `src/builder.rs:842-847` — `close_at_with`. -/
def Builder.closeAtWith (fl : Flavor) (cells : Cells) (b : Builder α) (c : Nat) (data : α)
    (span : Span) : Cells × Res α Nat :=
  b.closeAtCore fl cells c data (some span)

/-- `src/builder.rs:966-972` — `build`. -/
def Builder.build (b : Builder α) : Except Err (Tree α) :=
  if b.parent.isSome then .error .buildError else .ok b.tree

/-- The calls a client can make on a builder. `closeAt k` and `closeAtWith k` use the checkpoint
returned by the `k`-th successful `checkpoint` call of the history. -/
inductive Op (α : Type) where
  | open (data : α)
  | openWith (data : α) (span : Span)
  | close
  | token (value : α) (len : Nat)
  | tokenEmpty (value : α)
  | tokenWith (value : α) (span : Span)
  | checkpoint
  | closeAt (k : Nat) (data : α)
  | closeAtWith (k : Nat) (data : α) (span : Span)
  | setCursor (i : Nat)
  deriving DecidableEq, Repr

/-- What a call returned: an id, a checkpoint (reported as the handle number) or nothing. -/
inductive Out where
  | id (i : Nat)
  | handle (k : Nat)
  | unit
  deriving DecidableEq, Repr

/-- A builder together with the heap of checkpoint cells and the checkpoints handed out so far
(`handles[k]` is the cell of the `k`-th checkpoint). Client-side bookkeeping, no Rust counterpart. -/
structure Sys (α : Type) where
  b : Builder α
  cells : Cells
  handles : List Nat
  deriving DecidableEq, Repr

def Sys.init : Sys α := ⟨Builder.new, [], []⟩

/-- Lift a builder result to the client state. -/
def Sys.lift {β : Type} (s : Sys α) (f : β → Out) (r : Res α β) : Sys α × Except Err Out :=
  ({ s with b := r.1 }, r.2.map f)

/-- One client call. A call with a handle that was never handed out cannot be written in Rust; it
is a no-op here. -/
def Sys.step (fl : Flavor) (s : Sys α) : Op α → Sys α × Except Err Out
  | .open d => s.lift .id (s.b.open fl d)
  | .openWith d sp => s.lift .id (s.b.openWith fl d sp)
  | .close => s.lift (fun _ => .unit) s.b.close
  | .token d n => s.lift .id (s.b.token fl d n)
  | .tokenEmpty d => s.lift .id (s.b.tokenEmpty fl d)
  | .tokenWith d sp => s.lift .id (s.b.tokenWith fl d sp)
  | .checkpoint =>
    match s.b.mkCheckpoint fl s.cells with
    | (cells, b, .ok c) =>
      (⟨b, cells, s.handles ++ [c]⟩, .ok (.handle s.handles.length))
    | (cells, b, .error e) => ({ s with b := b, cells := cells }, .error e)
  | .closeAt k d =>
    match s.handles[k]? with
    | none => (s, .ok .unit)
    | some c =>
      let r := s.b.closeAt fl s.cells c d
      ({ s with b := r.2.1, cells := r.1 }, r.2.2.map .id)
  | .closeAtWith k d sp =>
    match s.handles[k]? with
    | none => (s, .ok .unit)
    | some c =>
      let r := s.b.closeAtWith fl s.cells c d sp
      ({ s with b := r.2.1, cells := r.1 }, r.2.2.map .id)
  | .setCursor i => ({ s with b := s.b.setCursor i }, .ok .unit)

/-- A whole history, with the list of results. -/
def Sys.run (fl : Flavor) : Sys α → List (Op α) → Sys α × List (Except Err Out)
  | s, [] => (s, [])
  | s, op :: ops =>
    let (s, o) := s.step fl op
    let (s, os) := Sys.run fl s ops
    (s, o :: os)

end Syntree
