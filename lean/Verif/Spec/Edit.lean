import Verif.Spec.Macro

/-! # Vocabulary about editing -/

namespace Syntree

variable {α : Type}

/-- Leave out the elements that satisfy `p`, with everything below them. -/
def Forest.prune {β : Type} (p : β → Bool) : Forest β → Forest β
  | .nil => .nil
  | .cons x k r => if p x then r.prune p else .cons x (k.prune p) (r.prune p)

/-- Where a node with these children is said to end by `modify`: at the end of its last child if
that is childless, and at the *start* of its last child otherwise. -/
def Forest.lastStop {α : Type} (stop : Nat) : Forest (Lab α) → Nat
  | .nil => stop
  | .cons x .nil .nil => x.span.stop
  | .cons x _ .nil => x.span.start
  | .cons _ _ r => r.lastStop stop

/-- The nested list with the ends of its nodes as `modify` computes them. -/
def Forest.shorten {α : Type} : Forest (Lab α) → Forest (Lab α)
  | .nil => .nil
  | .cons x k r =>
    .cons { x with span := ⟨x.span.start, k.lastStop x.span.stop⟩ } k.shorten r.shorten

/-- The nested list numbered in document order, with its childless nodes laid end to end from `0`
and every other node spanning its children: the nested list of `tree!` for this literal. -/
def Forest.relaid (ik : IndexKind) (F : Forest (Lab α)) : Forest (Lab α) := F.literal.layout ik 0 0

/-- The last child of every node is childless. -/
def Forest.TokenLast {β : Type} (F : Forest β) : Prop :=
  ∀ anc left x kids, Forest.Loc F anc left x kids .nil → anc ≠ [] → kids = .nil

/-- The last child of every node, if it has children, has an empty span. -/
def Forest.Tight (F : Forest (Lab α)) : Prop :=
  ∀ p anc left x kids, Forest.Loc F (p :: anc) left x kids .nil → kids ≠ .nil →
    x.span.start = x.span.stop

/-- Ids in document order: `0, 1, 2, …`. -/
def Forest.Numbered (F : Forest (Lab α)) : Prop := F.ids = List.range F.size

/-- Without the last element of the outermost level. -/
def Forest.dropLast {β : Type} : Forest β → Forest β
  | .nil => .nil
  | .cons _ _ .nil => .nil
  | .cons x k r => .cons x k r.dropLast

/-- The position in document order of the last element of the outermost level. -/
def Forest.lastPos {β : Type} : Forest β → Nat
  | .nil => 0
  | .cons _ _ .nil => 0
  | .cons _ k r => 1 + k.size + r.lastPos

/-- What `modify` makes of a nested list if the node at position `i` of the document order is hit
by a removal. A root, and a node with a sibling after it, goes away with everything below it. If it
is the last child of its parent, then the parent is ended before it, and follows once more with
*all* of its children. (The span of the truncated copy only matters if it has no children left:
then it is empty.) -/
def Forest.hitAt (i : Nat) : Forest (Lab α) → Forest (Lab α)
  | .nil => .nil
  | .cons x k r =>
    if i = 0 then r
    else if i ≤ k.size then
      if i - 1 = k.lastPos then .cons ⟨x.id, x.data, ⟨0, 0⟩⟩ k.dropLast (.cons x k r)
      else .cons x (k.hitAt (i - 1)) r
    else .cons x k (r.hitAt (i - 1 - k.size))

/-- Where the elements that satisfy `p` are cut out: for each of them (not below another one) the
number of elements in front of it that stay, plus `c`. -/
def Forest.cuts {β : Type} (p : β → Bool) (c : Nat) : Forest β → List Nat
  | .nil => []
  | .cons x k r =>
    if p x then c :: r.cuts p c else k.cuts p (c + 1) ++ r.cuts p (c + 1 + (k.prune p).size)

/-- Every element that satisfies `p` and is not below another one that does is followed by a sibling
that does not, or is the last root. -/
def Forest.Spaced {β : Type} (p : β → Bool) (F : Forest β) : Prop :=
  ∀ anc left x kids right, Forest.Loc F anc left x kids right → (∀ a ∈ anc, p a = false) →
    p x = true →
    (anc = [] ∧ right = .nil) ∨ ∃ y k r, right = .cons y k r ∧ p y = false

/-- `r` is a copy of the nested list `G`: the copy exists if and only if it fits the flavor, and
walking over it lists the nodes of `G` in their nesting and order, with ids in document order and
the childless nodes laid end to end. (But the ends of the spans of the other nodes are those of
`Forest.shorten`.) -/
def IsCopy (fl : Flavor) (r : Except Err (Tree α)) (G : Forest (Lab α)) : Prop :=
  (G.literal.Fits fl → ∃ t', r = .ok t' ∧ t'.listing = some ((G.relaid fl.ik).shorten).listing ∧
    t'.span = ⟨0, G.literal.len fl.ik⟩ ∧ t'.len = G.size) ∧
  (¬ G.literal.Fits fl → r = .error .overflow)

/-- What `modify` makes of a nested list, for every set `S` of ids to be removed. The copy gets the
ids `c, c + 1, …`, and it is with *these* that `S` is compared.

`Edited S now c F G cut`: from the siblings `F` the copy `G` is made. `now` says that the first of
them is to be copied without being looked up in `S`; `cut` that it ended early, by the removal of
the last sibling. The rules:

* a sibling whose new id is in `S` is left out, and then the one after it is copied without being
  looked up (`skip`);
* if there is none after it, the level is cut off (`last`);
* a childless node is copied (`leaf`), and a node with children is copied with the copy of its
  children (`node`);
* unless the latter is cut off: then the copy of the node ends here, and the node is copied *again*
  with all of its children, after it (`again`). (The span of the truncated copy only matters if it
  has no children left: then it is empty.) -/
inductive Edited (S : List Nat) :
    (now : Bool) → (c : Nat) → (F G : Forest (Lab α)) → (cut : Bool) → Prop
  | nil {c : Nat} : Edited S false c .nil .nil false
  | skip {c : Nat} {x y : Lab α} {k k' r G : Forest (Lab α)} {cut : Bool} : c ∈ S →
      Edited S true c (.cons y k' r) G cut → Edited S false c (.cons x k (.cons y k' r)) G cut
  | last {c : Nat} {x : Lab α} {k : Forest (Lab α)} : c ∈ S →
      Edited S false c (.cons x k .nil) .nil true
  | keep {c : Nat} {x : Lab α} {k r G : Forest (Lab α)} {cut : Bool} : c ∉ S →
      Edited S true c (.cons x k r) G cut → Edited S false c (.cons x k r) G cut
  | leaf {c : Nat} {x : Lab α} {r G : Forest (Lab α)} {cut : Bool} :
      Edited S false (c + 1) r G cut → Edited S true c (.cons x .nil r) (.cons x .nil G) cut
  | node {c : Nat} {x : Lab α} {k r K G : Forest (Lab α)} {cut : Bool} : k ≠ .nil →
      Edited S false (c + 1) k K false → Edited S false (c + 1 + K.size) r G cut →
      Edited S true c (.cons x k r) (.cons x K G) cut
  | again {c : Nat} {x : Lab α} {k r K G : Forest (Lab α)} {cut : Bool} : k ≠ .nil →
      Edited S false (c + 1) k K true → Edited S true (c + 1 + K.size) (.cons x k r) G cut →
      Edited S true c (.cons x k r) (.cons ⟨x.id, x.data, ⟨0, 0⟩⟩ K G) cut

/-- As `IsCopy`, except that one more node has to fit if the outermost level was cut off: the
removal of the last root is noticed only when there is an id for it. -/
def IsCopyCut (fl : Flavor) (r : Except Err (Tree α)) (G : Forest (Lab α)) (cut : Bool) : Prop :=
  (G.literal.Fits fl ∧ (cut = true → G.size < 2 ^ fl.width - 1) →
    ∃ t', r = .ok t' ∧ t'.listing = some ((G.relaid fl.ik).shorten).listing ∧
      t'.span = ⟨0, G.literal.len fl.ik⟩ ∧ t'.len = G.size) ∧
  (¬ (G.literal.Fits fl ∧ (cut = true → G.size < 2 ^ fl.width - 1)) → r = .error .overflow)

/-- For every element the values on the way from it up to the root, `up` being what is above. -/
def Forest.pathsUp {β : Type} (up : List β) : Forest β → List (List β)
  | .nil => []
  | .cons x k r => (x :: up) :: (k.pathsUp (x :: up) ++ r.pathsUp up)

end Syntree

/-- The spans of these nodes lie end to end from `a` to `b`. -/
def Syntree.EndToEnd {α : Type} : Nat → List (Syntree.Lab α) → Nat → Prop
  | a, [], b => a = b
  | a, x :: l, b => x.span.start = a ∧ a ≤ x.span.stop ∧ Syntree.EndToEnd x.span.stop l b
