import Verif.Model.Node

/-!
# Programs that iterate over a tree

A program holds an iterator and the tree it belongs to. It calls the methods of the iterator in any
order, and replaces values in the tree in between (`Node::replace` only needs a shared reference).
-/

namespace Syntree

variable {α σ : Type}

/-- A call on an iterator over nodes. -/
inductive Ask where
  /-- `next()` -/
  | next
  /-- `next_back()` -/
  | nextBack
  /-- `next_node()`, or `next()` of the iterator with `skip_tokens()` -/
  | nextNode
  /-- `next_back()` of the iterator with `skip_tokens()` -/
  | nextNodeBack
  /-- `find(p)` -/
  | find (p : Nat → Bool)
  /-- `rfind(p)` -/
  | rfind (p : Nat → Bool)
  /-- `find(p)` of the iterator with `skip_tokens()` -/
  | findNode (p : Nat → Bool)
  /-- `rfind(p)` of the iterator with `skip_tokens()` -/
  | rfindNode (p : Nat → Bool)

/-- Does the call take from the front? -/
def Ask.forward : Ask → Bool
  | .next | .nextNode | .find _ | .findNode _ => true
  | .nextBack | .nextNodeBack | .rfind _ | .rfindNode _ => false

/-- A step of the program. -/
inductive Cmd (α : Type) where
  /-- `node.replace(v)` for the node `i` -/
  | replace (i : Nat) (v : α)
  | ask (a : Ask)

/-- Does the program take from the front only? -/
def Cmd.forward : Cmd α → Bool
  | .replace _ _ => true
  | .ask a => a.forward

/-! ## What the program does, with the code -/

/-- The method that is called. `Iterator::find` is the default method of the standard library; the
loop of the model has fuel for every node once. -/
def Ask.call (nodes : Slice α) (next back : NextFn σ Nat) : Ask → NextFn σ Nat
  | .next => next
  | .nextBack => back
  | .nextNode => SkipTokens.next nodes next
  | .nextNodeBack => SkipTokens.nextBack nodes back
  | .find p => findLoop next p (nodes.length + 1)
  | .rfind p => findLoop back p (nodes.length + 1)
  | .findNode p => SkipTokens.find nodes next p
  | .rfindNode p => SkipTokens.rfind nodes back p

/-- Run a program: what its calls return, each node with the value the program reads from it when it
gets it; and the tree and the iterator at the end. -/
def session (next back : Slice α → NextFn σ Nat) : List (Cmd α) → Slice α → σ →
    List (Got (Nat × Option α)) × Slice α × σ
  | [], nodes, s => ([], nodes, s)
  | .replace i v :: cs, nodes, s => session next back cs (nodeReplace nodes i v).1 s
  | .ask a :: cs, nodes, s =>
    let r := a.call nodes (next nodes) (back nodes) s
    let rest := session next back cs nodes r.1
    (r.2.map (fun i => (i, nodeValue nodes i)) :: rest.1, rest.2)

/-! ## What the program does, with a list of nodes and a table of values -/

/-- The first element that satisfies `p`, and what is behind it. -/
def takeFirst (p : Nat → Bool) : List Nat → Option Nat × List Nat
  | [] => (none, [])
  | x :: l => if p x then (some x, l) else takeFirst p l

/-- The last element that satisfies `p`, and what is in front of it. -/
def takeLast (p : Nat → Bool) (l : List Nat) : Option Nat × List Nat :=
  ((takeFirst p l.reverse).1, (takeFirst p l.reverse).2.reverse)

/-- A call, on the list of the nodes not handed out yet. `inner` are the nodes with children. -/
def Ask.onList (inner : Nat → Bool) : Ask → List Nat → Option Nat × List Nat
  | .next => takeFirst (fun _ => true)
  | .nextBack => takeLast (fun _ => true)
  | .nextNode => takeFirst inner
  | .nextNodeBack => takeLast inner
  | .find p => takeFirst p
  | .rfind p => takeLast p
  | .findNode p => takeFirst (fun i => inner i && p i)
  | .rfindNode p => takeLast (fun i => inner i && p i)

/-- A program, on a list of nodes and a table of values. -/
def listSession (inner : Nat → Bool) : List (Cmd α) → (Nat → Option α) → List Nat →
    List (Option (Nat × Option α)) × (Nat → Option α) × List Nat
  | [], vals, l => ([], vals, l)
  | .replace i v :: cs, vals, l =>
    listSession inner cs (fun j => if j = i then (vals i).map (fun _ => v) else vals j) l
  | .ask a :: cs, vals, l =>
    let r := a.onList inner l
    let rest := listSession inner cs vals r.2
    (r.1.map (fun i => (i, vals i)) :: rest.1, rest.2)

/-- Nothing but values differs: same nodes, spans and links. -/
def SameShape (nodes nodes' : Slice α) : Prop :=
  nodes'.length = nodes.length ∧ ∀ i, nodeSpan nodes' i = nodeSpan nodes i ∧
    nodeParent nodes' i = nodeParent nodes i ∧ nodePrev nodes' i = nodePrev nodes i ∧
    nodeNext nodes' i = nodeNext nodes i ∧ nodeFirst nodes' i = nodeFirst nodes i ∧
    nodeLast nodes' i = nodeLast nodes i ∧ hasChildren nodes' i = hasChildren nodes i

/-- The program `cs`, run on an iterator in the state `s` over the tree `nodes`, sees what it would
see with the list `l`: the same answers (in particular every call ends), each with the value written
last; at the end the table of values is the same, the iterator hands out the rest of the list, and
nothing in the tree but values has changed. -/
def Plays (next back : Slice α → NextFn σ Nat) (cs : List (Cmd α)) (nodes : Slice α) (s : σ)
    (l : List Nat) : Prop :=
  let code := session next back cs nodes s
  let list := listSession (hasChildren nodes) cs (nodeValue nodes) l
  code.1 = list.1.map Got.ofOption ∧ nodeValue code.2.1 = list.2.1 ∧
    Yields (next code.2.1) code.2.2 list.2.2 ∧ SameShape nodes code.2.1

/-- The value that the program wrote last to node `i`, if it did. -/
def lastWrite (cs : List (Cmd α)) (i : Nat) : Option α :=
  (cs.filterMap fun c =>
    match c with
    | .replace j v => if j = i then some v else none
    | .ask _ => none).getLast?

/-! ## `next()` and `next_with_depth()` on one `Walk` -/

/-- A step of a program that holds a `Walk`. -/
inductive WalkCmd (α : Type) where
  | replace (i : Nat) (v : α)
  | next
  | nextWithDepth

/-- Run it: for every call the depth (if asked for), the node and its value. -/
def walkSession : List (WalkCmd α) → Slice α → WalkEvents →
    List (Got (Option Int × Nat × Option α)) × Slice α × WalkEvents
  | [], nodes, w => ([], nodes, w)
  | .replace i v :: cs, nodes, w => walkSession cs (nodeReplace nodes i v).1 w
  | .next :: cs, nodes, w =>
    let r := Walk.next nodes w
    let rest := walkSession cs nodes r.1
    (r.2.map (fun i => (none, i, nodeValue nodes i)) :: rest.1, rest.2)
  | .nextWithDepth :: cs, nodes, w =>
    let r := WithDepths.next nodes w
    let rest := walkSession cs nodes r.1
    (r.2.map (fun p => (some p.1, p.2, nodeValue nodes p.2)) :: rest.1, rest.2)

/-- The same on a list of nodes with depths and a table of values. -/
def listWalk : List (WalkCmd α) → (Nat → Option α) → List (Int × Nat) →
    List (Option (Option Int × Nat × Option α)) × (Nat → Option α) × List (Int × Nat)
  | [], vals, l => ([], vals, l)
  | .replace i v :: cs, vals, l =>
    listWalk cs (fun j => if j = i then (vals i).map (fun _ => v) else vals j) l
  | .next :: cs, vals, l =>
    let rest := listWalk cs vals l.tail
    (l.head?.map (fun p => (none, p.2, vals p.2)) :: rest.1, rest.2)
  | .nextWithDepth :: cs, vals, l =>
    let rest := listWalk cs vals l.tail
    (l.head?.map (fun p => (some p.1, p.2, vals p.2)) :: rest.1, rest.2)

end Syntree
