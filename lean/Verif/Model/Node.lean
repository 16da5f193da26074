import Verif.Model.Tree
import Verif.Model.Iter

/-!
# Model of `src/node/*.rs` and of the reading part of `src/tree.rs`

A `Node` (`src/node/node_impl.rs:24-31`) is a reference into the slice of links. Simplification:
it is represented by its position in that slice, so that `id()` (`node_impl.rs:508-518`, pointer
arithmetic on the reference, then the unchecked pointer constructor) is the identity. Every
function takes the slice (`nodes`) first; a `Node` value only exists for a position inside the
slice, and all functions below that return a node go through a bounds checked `get`.
-/

namespace Syntree

variable {α : Type}

/-- The slice `&[Links]` that a `Node` and all iterators carry. -/
abbrev Slice (α : Type) := List (Links α)

/-- `src/node/node_impl.rs:469-476` — `node_at`, and `src/tree.rs:299-302` — `Tree::get`. -/
def nodeAt (nodes : Slice α) (id : Nat) : Option Nat :=
  match nodes[id]? with
  | none => none
  | some _ => some id

/-- Follow an optional link: `self.node_at(self.links.xxx?)`. -/
def follow (nodes : Slice α) (n : Nat) (link : Links α → Option Nat) : Option Nat :=
  match nodes[n]? with
  | none => none
  | some l =>
    match link l with
    | none => none
    | some id => nodeAt nodes id

/-- `src/node/node_impl.rs:68-70` — `value`. `none` only for a position outside of the slice. -/
def nodeValue (nodes : Slice α) (n : Nat) : Option α := nodes[n]?.map (·.data)
/-- `src/node/node_impl.rs:154-156` — `span`. -/
def nodeSpan (nodes : Slice α) (n : Nat) : Option Span := nodes[n]?.map (·.span)
/-- `src/node/node_impl.rs:554-556` — `range`. -/
def nodeRange (ik : IndexKind) (nodes : Slice α) (n : Nat) : Option (Nat × Nat) :=
  nodes[n]?.map (·.span.range ik)
/-- `src/node/node_impl.rs:120-122` — `has_children`. -/
def hasChildren (nodes : Slice α) (n : Nat) : Bool :=
  match nodes[n]? with
  | none => false
  | some l => l.first.isSome
/-- `src/node/node_impl.rs:179-181` — `is_empty`. -/
def nodeIsEmpty (nodes : Slice α) (n : Nat) : Bool :=
  match nodes[n]? with
  | none => false
  | some l => l.first.isNone
/-- `src/node/node_impl.rs:96-98` — `replace`: `Cell::replace` on the data of the links; returns
the old value and the slice afterwards. -/
def nodeReplace (nodes : Slice α) (n : Nat) (value : α) : Slice α × Option α :=
  match nodes[n]? with
  | none => (nodes, none)
  | some l => (nodes.set n { l with data := value }, some l.data)
/-- The same on the tree that owns the slice. -/
def Tree.replace (t : Tree α) (n : Nat) (value : α) : Tree α × Option α :=
  ({ t with nodes := (nodeReplace t.nodes n value).1 }, (nodeReplace t.nodes n value).2)
/-- `src/node/node_impl.rs:272-274` — `parent`. -/
def nodeParent (nodes : Slice α) (n : Nat) : Option Nat := follow nodes n (·.parent)
/-- `src/node/node_impl.rs:304-306` — `prev`. -/
def nodePrev (nodes : Slice α) (n : Nat) : Option Nat := follow nodes n (·.prev)
/-- `src/node/node_impl.rs:335-337` — `next`. -/
def nodeNext (nodes : Slice α) (n : Nat) : Option Nat := follow nodes n (·.next)
/-- `src/node/node_impl.rs:366-368` — `first`. -/
def nodeFirst (nodes : Slice α) (n : Nat) : Option Nat := follow nodes n (·.first)
/-- `src/node/node_impl.rs:397-399` — `last`. -/
def nodeLast (nodes : Slice α) (n : Nat) : Option Nat := follow nodes n (·.last)

/-- `src/tree.rs:299-302` — `Tree::get`. -/
def Tree.get (t : Tree α) (id : Nat) : Option Nat := nodeAt t.nodes id
/-- `src/tree.rs:215-217` — `Tree::first`. -/
def Tree.firstNode (t : Tree α) : Option Nat := t.first.bind t.get
/-- `src/tree.rs:234-236` — `Tree::last`. -/
def Tree.lastNode (t : Tree α) : Option Nat := t.last.bind t.get
/-- `src/tree.rs:99-101` — `Tree::span`. -/
def Tree.getSpan (t : Tree α) : Span := t.span
/-- `src/tree.rs:327-329` — `Tree::range`. -/
def Tree.range (ik : IndexKind) (t : Tree α) : Nat × Nat := t.span.range ik

/-! ## `Children` -/

/-- `src/node/children.rs:72-80` — `Children` without the slice. -/
structure Children where
  first : Option Nat
  last : Option Nat
  deriving DecidableEq, Repr

/-- `src/node/children.rs:160-169` — `Children::next`. -/
def Children.next (nodes : Slice α) : NextFn Children Nat := fun c =>
  match c.first with
  | none => (c, .none)
  | some first =>
    let c := { c with first := none }
    match nodes[first]? with
    | none => (c, .none)
    | some node =>
      match c.last with
      | none => (c, .none)
      | some last =>
        if first ≠ last then ({ c with first := node.next }, .some first)
        else (c, .some first)

/-- `src/node/children.rs:178-187` — `Children::next_back`. -/
def Children.nextBack (nodes : Slice α) : NextFn Children Nat := fun c =>
  match c.last with
  | none => (c, .none)
  | some last =>
    let c := { c with last := none }
    match nodes[last]? with
    | none => (c, .none)
    | some node =>
      match c.first with
      | none => (c, .none)
      | some first =>
        if last ≠ first then ({ c with last := node.prev }, .some last)
        else (c, .some last)

/-- `src/node/children.rs:218-224` — `Default for Children`. -/
def Children.default : Children := ⟨none, none⟩

/-- `src/tree.rs:180-182` — `Tree::children`. -/
def Tree.children (t : Tree α) : Children := ⟨t.first, t.last⟩
/-- `src/node/node_impl.rs:203-205` — `Node::children`. -/
def nodeChildren (nodes : Slice α) (n : Nat) : Children :=
  match nodes[n]? with
  | none => ⟨none, none⟩
  | some l => ⟨l.first, l.last⟩

/-! ## `Siblings`, `Ancestors` -/

/-- `src/node/siblings.rs:156-160` — `Siblings::next`. The state is the `links` field (a reference
into the slice, so a position). -/
def Siblings.next (nodes : Slice α) : NextFn (Option Nat) Nat := fun s =>
  match s with
  | none => (none, .none)
  | some n => (nodeNext nodes n, .some n)

/-- `src/node/siblings.rs:190-195` — `Default for Siblings`. -/
def Siblings.default : Option Nat := none

/-- `src/node/node_impl.rs:195-197` — `Node::siblings`. -/
def nodeSiblings (n : Nat) : Option Nat := some n

/-- `src/node/ancestors.rs:126-130` — `Ancestors::next`. The state is the `node` field. -/
def Ancestors.next (nodes : Slice α) : NextFn (Option Nat) Nat := fun s =>
  match s with
  | none => (none, .none)
  | some n => (nodeParent nodes n, .some n)

/-- `src/node/ancestors.rs:157-159` — `Default for Ancestors`. -/
def Ancestors.default : Option Nat := none

/-- `src/node/node_impl.rs:187-189` — `Node::ancestors`. -/
def nodeAncestors (n : Nat) : Option Nat := some n

/-! ## `WalkEvents` -/

/-- `src/node/walk_events.rs:12-19` — `Event`. -/
inductive Event where
  | next
  | down
  | up
  deriving DecidableEq, Repr

/-- `src/node/walk_events.rs:139-149` — `WalkEvents` without the slice. `depth` is an `isize`; it
is an unbounded integer here (the checked additions fail only beyond `isize::MAX` levels). -/
structure WalkEvents where
  node : Option (Nat × Event)
  depth : Int
  deriving DecidableEq, Repr

/-- `src/node/walk_events.rs:159-169` — `WalkEvents::new`. -/
def WalkEvents.new (node : Option Nat) (e : Event) : WalkEvents := ⟨node.map (·, e), 0⟩

/-- `src/node/walk_events.rs:223-229` — `Default for WalkEvents`, also the state of a default `Walk`
(`walk.rs:244-248`), `WithDepths` (`walk.rs:378-382`) and `Inside` (`walk.rs:477-481`). The empty slice is not represented: with
`node = None` it is never looked at. -/
def WalkEvents.default : WalkEvents := ⟨none, 0⟩

/-- `src/node/walk_events.rs:177-199` — `WalkEvents::step`: the new depth and the next node. -/
def WalkEvents.step (depth : Int) (links : Links α) (event : Event) :
    Int × Option (Nat × Event) :=
  let ascend : Int × Option (Nat × Event) :=
    (depth - 1, match links.parent with
      | none => none
      | some p => some (p, .up))
  match event with
  | .up =>
    match links.next with
    | some next => (depth, some (next, .next))
    | none => ascend
  | _ =>
    match links.first with
    | some first => (depth + 1, some (first, .down))
    | none =>
      match links.next with
      | some next => (depth, some (next, .next))
      | none => ascend

/-- `src/node/walk_events.rs:239-245` — `WalkEvents::next`. -/
def WalkEvents.next (nodes : Slice α) : NextFn WalkEvents (Event × Nat) := fun w =>
  match w.node with
  | none => (w, .none)
  | some (node, event) =>
    match nodes[node]? with
    | none => ({ w with node := none }, .none)
    | some links =>
      let r := WalkEvents.step w.depth links event
      (⟨r.2, r.1⟩, .some (event, node))

/-! ## `Walk`, `WithDepths`, `Inside`

All three wrap a `WalkEvents` and loop over it; the loop has fuel `nodes.length + 1`, more than
the number of consecutive `Up` events. -/

/-- `src/node/walk.rs:259-267` — `Walk::next`. -/
def Walk.nextLoop (nodes : Slice α) : Nat → NextFn WalkEvents Nat
  | 0, w => (w, .diverge)
  | fuel + 1, w =>
    match WalkEvents.next nodes w with
    | (w, .none) => (w, .none)
    | (w, .diverge) => (w, .diverge)
    | (w, .some (event, node)) =>
      if event ≠ .up then (w, .some node) else Walk.nextLoop nodes fuel w

def Walk.next (nodes : Slice α) : NextFn WalkEvents Nat := Walk.nextLoop nodes (nodes.length + 1)

/-- `src/node/walk.rs:340-349` — `WithDepths::next`, and `src/node/walk.rs:213-222` —
`Walk::next_with_depth` (the same body). -/
def WithDepths.nextLoop (nodes : Slice α) : Nat → NextFn WalkEvents (Int × Nat)
  | 0, w => (w, .diverge)
  | fuel + 1, w =>
    let depth := w.depth
    match WalkEvents.next nodes w with
    | (w, .none) => (w, .none)
    | (w, .diverge) => (w, .diverge)
    | (w, .some (event, node)) =>
      if event ≠ .up then (w, .some (depth, node)) else WithDepths.nextLoop nodes fuel w

def WithDepths.next (nodes : Slice α) : NextFn WalkEvents (Int × Nat) :=
  WithDepths.nextLoop nodes (nodes.length + 1)

/-- `src/node/walk.rs:436-448` — `Inside::next`. -/
def Inside.nextLoop (nodes : Slice α) : Nat → NextFn WalkEvents Nat
  | 0, w => (w, .diverge)
  | fuel + 1, w =>
    match WalkEvents.next nodes w with
    | (w, .none) => (w, .none)
    | (w, .diverge) => (w, .diverge)
    | (w, .some (event, node)) =>
      let w := if w.depth ≤ 0 then WalkEvents.default else w
      if event ≠ .up then (w, .some node) else Inside.nextLoop nodes fuel w

def Inside.next (nodes : Slice α) : NextFn WalkEvents Nat :=
  Inside.nextLoop nodes (nodes.length + 1)

/-- `src/tree.rs:188-190` — `Tree::walk`; `src/tree.rs:196-198` — `Tree::walk_events`. -/
def Tree.walk (t : Tree α) : WalkEvents := WalkEvents.new t.first .next
/-- `src/node/node_impl.rs:212-214` — `Node::walk`; `node_impl.rs:231-233` — `walk_events`. -/
def nodeWalk (n : Nat) : WalkEvents := WalkEvents.new (some n) .next
/-- `src/node/node_impl.rs:222-224` — `Node::walk_from`. -/
def nodeWalkFrom (n : Nat) : WalkEvents := WalkEvents.new (some n) .up

/-! ## `SkipTokens` and `next_node` -/

/-- `src/node/skip_tokens.rs:92-94` — `SkipTokens::next`. Also `next_node` of `Children`
(`children.rs:147-149`), `Siblings` (`siblings.rs:143-145`) and `Ancestors`
(`ancestors.rs:113-115`): the same expression. -/
def SkipTokens.next {σ : Type} (nodes : Slice α) (next : NextFn σ Nat) : NextFn σ Nat :=
  findLoop next (hasChildren nodes) (nodes.length + 1)

/-- `src/node/skip_tokens.rs:103-109` — `SkipTokens::find`. -/
def SkipTokens.find {σ : Type} (nodes : Slice α) (next : NextFn σ Nat) (p : Nat → Bool) :
    NextFn σ Nat :=
  findLoop next (fun n => hasChildren nodes n && p n) (nodes.length + 1)

/-- `src/node/skip_tokens.rs:119-121` — `SkipTokens::next_back`: `rfind` is `find` with
`next_back`. -/
def SkipTokens.nextBack {σ : Type} (nodes : Slice α) (nextBack : NextFn σ Nat) : NextFn σ Nat :=
  findLoop nextBack (hasChildren nodes) (nodes.length + 1)

/-- `src/node/skip_tokens.rs:124-130` — `SkipTokens::rfind`. -/
def SkipTokens.rfind {σ : Type} (nodes : Slice α) (nextBack : NextFn σ Nat) (p : Nat → Bool) :
    NextFn σ Nat :=
  findLoop nextBack (fun n => hasChildren nodes n && p n) (nodes.length + 1)

/-! ## `find_preceding` -/

/-- `src/node/node_impl.rs:442-453` — step 1 of `find_preceding`. Simplification: the predicate
(an `FnMut`) is a pure function of the node. -/
def findPrecedingUp (nodes : Slice α) (p : Nat → Bool) : Nat → Nat → Got Nat
  | 0, _ => .diverge
  | fuel + 1, n =>
    let up : Got Nat :=
      match nodeParent nodes n with
      | none => .none
      | some q => findPrecedingUp nodes p fuel q
    match nodePrev nodes n with
    | none => up
    | some prev => if p prev then .some prev else up

/-- `src/node/node_impl.rs:456-466` — step 2 of `find_preceding`. -/
def findPrecedingDown (nodes : Slice α) (p : Nat → Bool) : Nat → Nat → Got Nat
  | 0, _ => .diverge
  | fuel + 1, n =>
    match nodeLast nodes n with
    | none => .some n
    | some last => if ! p last then .some n else findPrecedingDown nodes p fuel last

/-- `src/node/node_impl.rs:435-467` — `find_preceding`. -/
def findPreceding (nodes : Slice α) (p : Nat → Bool) (n : Nat) : Got Nat :=
  match findPrecedingUp nodes p (nodes.length + 1) n with
  | .some m => findPrecedingDown nodes p (nodes.length + 1) m
  | .none => .none
  | .diverge => .diverge

/-! ## Equality and range queries -/

/-- `src/node/node_impl.rs:596-598` — `PartialEq for Node`. -/
def nodeEq [DecidableEq α] (nodes : Slice α) (n : Nat) (nodes' : Slice α) (n' : Nat) : Bool :=
  match nodes[n]?, nodes'[n']? with
  | some l, some l' => l.data == l'.data && l.span == l'.span
  | _, _ => false

/-- `src/tree.rs:567-598` — `PartialEq for Tree`. `none` is divergence. -/
def Tree.eq [DecidableEq α] (t t' : Tree α) : Option Bool :=
  iterEq (WithDepths.next t.nodes) (WithDepths.next t'.nodes)
    (fun x y => x.1 == y.1 && nodeEq t.nodes x.2 t'.nodes y.2)
    (t.nodes.length + 1) t.walk t'.walk

/-- Outcome of `slice::binary_search_by`: `Ok(n)` or `Err(n)`. -/
inductive Search where
  | ok (n : Nat)
  | err (n : Nat)
  deriving DecidableEq, Repr

/-- `src/tree.rs:519-522` — `match result { Ok(n) => n.saturating_add(1), Err(n) => n }`. -/
def Search.position : Search → Nat
  | .ok n => n + 1
  | .err n => n

/-- `src/tree.rs:526-532` — the climbing loop of `node_with_span_internal`. -/
def climb (nodes : Slice α) (stop : Nat) : Nat → Nat → Got Nat
  | 0, _ => .diverge
  | fuel + 1, n =>
    match nodeParent nodes n with
    | none => .some n
    | some q =>
      match nodeSpan nodes q with
      | none => .some q
      | some sp => if sp.stop ≥ stop then .some q else climb nodes stop fuel q

/-- `src/tree.rs:516-535` — `node_with_span_internal`. The standard library's
`binary_search_by(|f| f.index.cmp(&start))` is the parameter `search`. -/
def Tree.nodeWithSpanInternal (search : List TreeIndex → Nat → Search) (t : Tree α)
    (start stop : Nat) : Got Nat :=
  match t.indexes[(search t.indexes start).position]? with
  | none => .none
  | some ix =>
    match t.get ix.id with
    | none => .none
    | some node => climb t.nodes stop (t.nodes.length + 1) node

/-- `src/tree.rs:511-514` — `node_with_span`. -/
def Tree.nodeWithSpan (search : List TreeIndex → Nat → Search) (t : Tree α) (span : Span) :
    Got Nat :=
  t.nodeWithSpanInternal search span.start span.stop

/-- `src/tree.rs:405-409` — `node_with_range`. -/
def Tree.nodeWithRange (fl : Flavor) (search : List TreeIndex → Nat → Search) (t : Tree α)
    (start stop : Nat) : Got Nat :=
  match fl.ik.fromUsize start with
  | none => .none
  | some s =>
    match fl.ik.fromUsize stop with
    | none => .none
    | some e => t.nodeWithSpanInternal search s e

end Syntree
