import Verif.Model.Macro
import Verif.Model.World
import Verif.Model.Search
import Verif.Model.Edit
import Verif.Model.Print
import Verif.Model.Pointer

/-!
# A client's view of the model, for transcribing documented examples

`Check/Docs.lean` transcribes the examples in the documentation of the crate and its integration
tests. This file gives the model the surface those examples are written against: trees written as
literals, nodes reached by a chain of steps, iterators that are collected. There is nothing here
that the theorems use. These are tests of the model, not proofs about it.
-/

namespace Syntree.Check

/-- An item of a `tree!` literal, waiting for the items after it. -/
abbrev Item := Lit String → Lit String

def items (l : List Item) : Lit String := l.foldr (fun i r => i r) .nil
def node (d : String) (k : List Item) : Item := .node d (items k)
def nodeWith (d : String) (sp : Span) (k : List Item) : Item := .nodeWith d sp (items k)
def token (d : String) (n : Nat) : Item := .token d n
def empty (d : String) : Item := .tokenEmpty d
def tokenWith (d : String) (sp : Span) : Item := .tokenWith d sp

def ok? {β : Type} : Except Err β → Option β
  | .ok x => some x
  | .error _ => none

def err? {β : Type} : Except Err β → Option Err
  | .ok _ => none
  | .error e => some e

/-- `syntree::tree! { .. }`, with `?`. -/
def lit? (fl : Flavor) (l : List Item) : Option (Tree String) := ok? ((items l).tree fl)

/-- A new builder, calls each followed by `?`. -/
def after? (fl : Flavor) (ops : List (Op String)) : Option (Sys String) :=
  ok? (Sys.init.tryRun fl ops)

/-- A new builder, calls each followed by `?`, then `build()?`. -/
def built? (fl : Flavor) (ops : List (Op String)) : Option (Tree String) :=
  (after? fl ops).bind fun s => ok? s.b.build

/-- `*tree.cursor()` after some calls. -/
def cursor? (fl : Flavor) (ops : List (Op String)) : Option Nat :=
  (after? fl ops).map fun s => s.b.cursor

/-- The result of a call after some calls. -/
def callErr? (fl : Flavor) (ops : List (Op String)) (op : Op String) : Option Err :=
  (after? fl ops).bind fun s => err? (s.step fl op).2

def the (t : Option (Tree String)) : Tree String := t.getD Tree.empty

/-- An `Option<Node>`, with the tree it is a node of. -/
structure Ref where
  tree : Tree String
  id : Option Nat

namespace Ref
def step (r : Ref) (f : Slice String → Nat → Option Nat) : Ref :=
  ⟨r.tree, r.id.bind (f r.tree.nodes)⟩
def first (r : Ref) : Ref := r.step nodeFirst
def last (r : Ref) : Ref := r.step nodeLast
def next (r : Ref) : Ref := r.step nodeNext
def prev (r : Ref) : Ref := r.step nodePrev
def parent (r : Ref) : Ref := r.step nodeParent
def value (r : Ref) : Option String := r.id.bind (nodeValue r.tree.nodes)
def span (r : Ref) : Option Span := r.id.bind (nodeSpan r.tree.nodes)
def range (r : Ref) : Option (Nat × Nat) := r.id.bind (nodeRange (.bits 32) r.tree.nodes)
def hasChildren (r : Ref) : Option Bool := r.id.map (Syntree.hasChildren r.tree.nodes)
def isEmpty (r : Ref) : Option Bool := r.id.map (nodeIsEmpty r.tree.nodes)
end Ref

/-- An iterator over nodes. -/
structure Iter where
  {σ : Type}
  tree : Tree String
  nxt : NextFn σ Nat
  state : σ

namespace Iter
/-- `.map(|n| n.value()).collect()` -/
def values (i : Iter) : Option (List (Option String)) :=
  forLoop i.nxt (nodeValue i.tree.nodes) (i.tree.nodes.length + 1) i.state
/-- `.skip_tokens()`, and what `next_node` returns call by call. -/
def skipTokens (i : Iter) : Iter := ⟨i.tree, SkipTokens.next i.tree.nodes i.nxt, i.state⟩
end Iter

/-- `Walk` and `WalkEvents`. -/
structure Walking where
  tree : Tree String
  state : WalkEvents

namespace Walking
def iter (w : Walking) : Iter := ⟨w.tree, Walk.next w.tree.nodes, w.state⟩
def values (w : Walking) : Option (List (Option String)) := w.iter.values
def skipTokens (w : Walking) : Iter := w.iter.skipTokens
def inside (w : Walking) : Iter := ⟨w.tree, Inside.next w.tree.nodes, w.state⟩
def withDepths (w : Walking) : Option (List (Int × Option String)) :=
  forLoop (WithDepths.next w.tree.nodes) (fun x => (x.1, nodeValue w.tree.nodes x.2))
    (w.tree.nodes.length + 1) w.state
def events (w : Walking) : Option (List (Event × Option String)) :=
  forLoop (WalkEvents.next w.tree.nodes) (fun x => (x.1, nodeValue w.tree.nodes x.2))
    (2 * w.tree.nodes.length + 1) w.state
end Walking

namespace Ref
def ancestors (r : Ref) : Iter := ⟨r.tree, Ancestors.next r.tree.nodes, r.id.bind nodeAncestors⟩
def siblings (r : Ref) : Iter := ⟨r.tree, Siblings.next r.tree.nodes, r.id.bind nodeSiblings⟩
def children (r : Ref) : Iter :=
  ⟨r.tree, Children.next r.tree.nodes, (r.id.map (nodeChildren r.tree.nodes)).getD .default⟩
def childrenRev (r : Ref) : Iter :=
  ⟨r.tree, Children.nextBack r.tree.nodes, (r.id.map (nodeChildren r.tree.nodes)).getD .default⟩
def walk (r : Ref) : Walking := ⟨r.tree, (r.id.map nodeWalk).getD .default⟩
def walkFrom (r : Ref) : Walking := ⟨r.tree, (r.id.map nodeWalkFrom).getD .default⟩
end Ref

def got {β : Type} : Got β → Option β
  | .some x => some x
  | _ => none

end Syntree.Check

namespace Syntree.Tree
open Check

def firstRef (t : Tree String) : Ref := ⟨t, t.firstNode⟩
def lastRef (t : Tree String) : Ref := ⟨t, t.lastNode⟩
def getRef (t : Tree String) (id : Option Nat) : Ref := ⟨t, id.bind t.get⟩
def withRange (t : Tree String) (a b : Nat) : Ref :=
  ⟨t, got (t.nodeWithRange Flavor.default binarySearch a b)⟩
def withSpan (t : Tree String) (sp : Span) : Ref := ⟨t, got (t.nodeWithSpan binarySearch sp)⟩
def childrenIter (t : Tree String) : Iter := ⟨t, Children.next t.nodes, t.children⟩
def childrenRev (t : Tree String) : Iter := ⟨t, Children.nextBack t.nodes, t.children⟩
def walking (t : Tree String) : Walking := ⟨t, t.walk⟩
/-- `change_set.modify(&tree)?` after removing the given nodes. -/
def removing (t : Tree String) (rs : List Ref) : Option (Tree String) :=
  ok? ((rs.foldl (fun c r => match r.id with | some id => c.remove id | none => c)
    ChangeSet.new).modify Flavor.default t)

end Syntree.Tree
