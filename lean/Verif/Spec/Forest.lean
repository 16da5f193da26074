import Verif.Model.Node

/-!
# Specification vocabulary: nested lists

A `Forest β` is a nested list: every element `x` has a nested list of children. Nothing here
depends on how the library stores trees.
-/

namespace Syntree

/-- Nested lists. `cons x kids rest` is the element `x` with its children `kids`, followed by the
elements `rest`. -/
inductive Forest (β : Type) where
  | nil
  | cons (x : β) (kids rest : Forest β)
  deriving DecidableEq, Repr

namespace Forest

variable {β γ : Type}

/-- A single element without children. -/
abbrev leaf (x : β) : Forest β := .cons x .nil .nil

/-- A single element with children. -/
abbrev single (x : β) (kids : Forest β) : Forest β := .cons x kids .nil

def append : Forest β → Forest β → Forest β
  | .nil, G => G
  | .cons x k r, G => .cons x k (append r G)

instance : Append (Forest β) := ⟨append⟩

def isNil : Forest β → Bool
  | .nil => true
  | .cons .. => false

/-- The elements of the outermost level, in order. -/
def tops : Forest β → List β
  | .nil => []
  | .cons x _ r => x :: tops r

/-- All elements, every element before its children, children before the next element. -/
def preorder : Forest β → List β
  | .nil => []
  | .cons x k r => x :: (preorder k ++ preorder r)

/-- All elements in document order, with their nesting depth. -/
def depths (d : Nat) : Forest β → List (Nat × β)
  | .nil => []
  | .cons x k r => (d, x) :: (depths (d + 1) k ++ depths d r)

/-- The bracketed traversal: `e` is the event with which the first element is entered. -/
def events (e : Event) : Forest β → List (Event × β)
  | .nil => []
  | .cons x .nil r => (e, x) :: events .next r
  | .cons x k r => (e, x) :: (events .down k ++ (.up, x) :: events .next r)

/-- Elements without children, in document order. -/
def leaves : Forest β → List β
  | .nil => []
  | .cons x .nil r => x :: leaves r
  | .cons _ k r => leaves k ++ leaves r

/-- Elements with children, in document order. -/
def inner : Forest β → List β
  | .nil => []
  | .cons _ .nil r => inner r
  | .cons x k r => x :: (inner k ++ inner r)

/-- Number of elements. -/
def size : Forest β → Nat
  | .nil => 0
  | .cons _ k r => 1 + size k + size r

/-- Number of elements of the outermost level. -/
def width : Forest β → Nat
  | .nil => 0
  | .cons _ _ r => 1 + width r

def map (f : β → γ) : Forest β → Forest γ
  | .nil => .nil
  | .cons x k r => .cons (f x) (map f k) (map f r)

/-- The first `n` elements of the outermost level (with their children). -/
def take : Nat → Forest β → Forest β
  | 0, _ => .nil
  | _, .nil => .nil
  | n + 1, .cons x k r => .cons x k (take n r)

/-- Everything but the first `n` elements of the outermost level. -/
def drop : Nat → Forest β → Forest β
  | 0, F => F
  | _, .nil => .nil
  | n + 1, .cons _ _ r => drop n r

def head? (F : Forest β) : Option β := F.tops.head?
def last? (F : Forest β) : Option β := F.tops.getLast?

/-- The last element of the outermost level, its last child, the last child of that, and so on. -/
def spine : Forest β → List β
  | .nil => []
  | .cons x k .nil => x :: spine k
  | .cons _ _ r => spine r

/-- `Loc F anc left x kids right`: the element `x` occurs in `F` with the ancestors `anc` (parent
first), after the siblings `left`, before the siblings `right`, and with the children `kids`. -/
inductive Loc (F : Forest β) : List β → Forest β → β → Forest β → Forest β → Prop where
  | root {left x kids right} : F = left ++ cons x kids right → Loc F [] left x kids right
  | child {anc l p k r left x kids right} :
      Loc F anc l p k r → k = left ++ cons x kids right → Loc F (p :: anc) left x kids right

end Forest

/-- What the specification records about a node: the id it was given, its data and its span. -/
structure Lab (α : Type) where
  id : Nat
  data : α
  span : Span
  deriving DecidableEq, Repr

/-- The ids of a nested list of nodes, in document order. -/
def Forest.ids {α : Type} (F : Forest (Lab α)) : List Nat := F.preorder.map (·.id)

/-- The ids of the outermost level. -/
def Forest.topIds {α : Type} (F : Forest (Lab α)) : List Nat := F.tops.map (·.id)

/-- Forget the ids: nested list of values with spans. -/
def Forest.content {α : Type} (F : Forest (Lab α)) : Forest (α × Span) :=
  F.map (fun x => (x.data, x.span))

end Syntree
