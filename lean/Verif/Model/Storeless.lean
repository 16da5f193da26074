import Verif.Model.Macro
import Verif.Model.Edit

/-!
# Building with node storage that keeps nothing

`EmptyVec` is a `Storage` whose `push` succeeds and stores nothing (`src/empty.rs:88-122`). It is the
node storage of every flavor declared with `flavor!` (the default flavor included) if the crate is
built without its feature `alloc` (`src/flavor.rs:98`, `src/lib.rs:406-410`); the builder, the
trees and the macros are there without the feature as well (`src/lib.rs:359-379`).

The builder methods are modelled once more with `keep : Bool`, telling if the node storage keeps what
is pushed (`Vec`) or not (`EmptyVec`). Methods that push no node are those of `Model/Builder.lean`.
-/

namespace Syntree

variable {α : Type}

/-- `src/tree.rs:252-254` — `Tree::push` with `Vec` (`src/flavor.rs:46-49`) or `EmptyVec`
(`src/empty.rs:93-96`). -/
def Tree.pushK (keep : Bool) (t : Tree α) (l : Links α) : Tree α :=
  if keep then t.push l else t

/-- `src/builder.rs:975-1014` — `Builder::insert`. -/
def Builder.insertK (keep : Bool) (fl : Flavor) (b : Builder α) (data : α) (span : Span) :
    Res α Nat :=
  match ptrNew fl.width b.tree.len with
  | none => (b, .error .overflow)
  | some new =>
    let prev := b.sibling
    let t := b.tree.pushK keep
      { data := data, span := span, parent := b.parent, prev := prev,
        next := none, first := none, last := none }
    let t := match b.parent with
      | some id => t.modifyNode id (Links.addChild new span)
      | none => t.addRoot new
    let t := t.modifyOpt prev (fun l => { l with next := some new })
    ({ b with tree := t, sibling := none }, .ok new)

/-- `src/builder.rs:323-331` — `open_with`. -/
def Builder.openWithK (keep : Bool) (fl : Flavor) (b : Builder α) (data : α) (span : Span) :
    Res α Nat :=
  match b.insertK keep fl data span with
  | (b, .error e) => (b, .error e)
  | (b, .ok id) => ({ b with parent := some id }, .ok id)

/-- `src/builder.rs:412-431` — `token`. -/
def Builder.tokenK (keep : Bool) (fl : Flavor) (b : Builder α) (value : α) (len : Nat) :
    Res α Nat :=
  let start := b.cursor
  let adv : Option (Builder α) :=
    if fl.ik.lenIsEmpty len then some b
    else match fl.ik.checkedAddLen b.cursor len with
      | none => none
      | some c => some { b with
          cursor := c, tree := { b.tree with span := { b.tree.span with stop := c } } }
  match adv with
  | none => (b, .error .overflow)
  | some b =>
    match b.insertK keep fl value (Span.new start b.cursor) with
    | (b, .error e) => (b, .error e)
    | (b, .ok id) =>
      let b := { b with sibling := some id }
      if fl.ik.lenIsEmpty len then (b, .ok id)
      else ({ b with tree := b.tree.pushIndex fl ⟨b.cursor, id⟩ }, .ok id)

/-- `src/builder.rs:490-509` — `token_with`. -/
def Builder.tokenWithK (keep : Bool) (fl : Flavor) (b : Builder α) (value : α) (span : Span) :
    Res α Nat :=
  match b.insertK keep fl value span with
  | (b, .error e) => (b, .error e)
  | (b, .ok id) =>
    let t := b.tree.pushIndex fl ⟨span.start, id⟩
    let t := t.modifyOpt b.parent (fun p => { p with span := p.span.join span })
    ({ b with sibling := some id, tree := t, cursor := span.stop }, .ok id)

/-- `src/builder.rs:773-804` (`880-911` of `close_at_with`). -/
def Tree.relinkK (keep : Bool) (t : Tree α) (id newId : Nat) (parent prev : Option Nat)
    (new : Links α) : Tree α :=
  let t := t.modifyOpt parent (fun p =>
    { p with
      first := if p.first = some id then some newId else p.first
      last := if p.last = some id then some newId else p.last })
  let t := t.modifyOpt prev (fun p => { p with next := some newId })
  let t := { t with first := if t.first = some id then some newId else t.first }
  t.pushK keep new

/-- `src/builder.rs:735-809` — `close_at`, and `src/builder.rs:842-916` — `close_at_with`. -/
def Builder.closeAtCoreK (keep : Bool) (fl : Flavor) (cells : Cells) (b : Builder α) (c : Nat)
    (data : α) (explicit : Option Span) : Cells × Res α Nat :=
  match cells[c]? with
  | none => (cells, b, .error .closeAtError)
  | some cell =>
    let id := cell.node
    if cell.parent ≠ b.parent then (cells, b, .error .closeAtError) else
    match ptrNew fl.width b.tree.len with
    | none => (cells, b, .error .overflow)
    | some newId =>
      match b.tree.nodes[id]? with
      | none =>
        match b.insertK keep fl data (explicit.getD (Span.point b.cursor)) with
        | (b, .error e) => (cells, b, .error e)
        | (b, .ok newId) =>
          if newId ≠ id then (cells, b, .error (.missingNode newId))
          else (cells, { b with sibling := some newId }, .ok newId)
      | some links =>
        match reparent newId id links b.tree.nodes with
        | (nodes, .error e) => (cells, { b with tree := { b.tree with nodes := nodes } }, .error e)
        | (nodes, .ok (last, span)) =>
          let t := { b.tree with nodes := nodes }
          let t := t.relinkK keep id newId links.parent links.prev
            { data := data, span := explicit.getD span, prev := links.prev,
              parent := links.parent, next := none, first := some id, last := some last }
          (cells.set c ⟨newId, links.parent⟩, { b with tree := t, sibling := some newId },
            .ok newId)

/-- One client call: `Sys.step` (`Model/Builder.lean`) with the node storage given. -/
def Sys.stepK (keep : Bool) (fl : Flavor) (s : Sys α) : Op α → Sys α × Except Err Out
  | .open d => s.lift .id (s.b.openWithK keep fl d (Span.point s.b.cursor))
  | .openWith d sp => s.lift .id (s.b.openWithK keep fl d sp)
  | .close => s.lift (fun _ => .unit) s.b.close
  | .token d n => s.lift .id (s.b.tokenK keep fl d n)
  | .tokenEmpty d => s.lift .id (s.b.tokenK keep fl d 0)
  | .tokenWith d sp => s.lift .id (s.b.tokenWithK keep fl d sp)
  | .checkpoint =>
    match s.b.mkCheckpoint fl s.cells with
    | (cells, b, .ok c) =>
      (⟨b, cells, s.handles ++ [c]⟩, .ok (.handle s.handles.length))
    | (cells, b, .error e) => ({ s with b := b, cells := cells }, .error e)
  | .closeAt k d =>
    match s.handles[k]? with
    | none => (s, .ok .unit)
    | some c =>
      let r := s.b.closeAtCoreK keep fl s.cells c d none
      ({ s with b := r.2.1, cells := r.1 }, r.2.2.map .id)
  | .closeAtWith k d sp =>
    match s.handles[k]? with
    | none => (s, .ok .unit)
    | some c =>
      let r := s.b.closeAtCoreK keep fl s.cells c d (some sp)
      ({ s with b := r.2.1, cells := r.1 }, r.2.2.map .id)
  | .setCursor i => ({ s with b := s.b.setCursor i }, .ok .unit)

/-- A whole history, with the list of results. -/
def Sys.runK (keep : Bool) (fl : Flavor) : Sys α → List (Op α) → Sys α × List (Except Err Out)
  | s, [] => (s, [])
  | s, op :: ops =>
    let (s, o) := s.stepK keep fl op
    let (s, os) := Sys.runK keep fl s ops
    (s, o :: os)

/-- `call()?; call()?; ..`: the first error ends the sequence of calls. -/
def Sys.tryRunK (keep : Bool) (fl : Flavor) : Sys α → List (Op α) → Except Err (Sys α)
  | s, [] => .ok s
  | s, op :: ops =>
    match s.stepK keep fl op with
    | (s, .ok _) => Sys.tryRunK keep fl s ops
    | (_, .error e) => .error e

/-- `src/macros.rs:106-110` (`tree!`) and `src/macros.rs:150-154` (`tree_with!`). -/
def Lit.treeK (keep : Bool) (fl : Flavor) (lit : Lit α) : Except Err (Tree α) :=
  match Sys.init.tryRunK keep fl lit.calls with
  | .error e => .error e
  | .ok s => s.b.build

end Syntree
