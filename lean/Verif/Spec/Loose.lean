import Verif.Spec.Nested
import Verif.Spec.Built

/-!
# Specification of the builder for any use of its checkpoints

`Nest` (`Spec/Nested.lean`) leaves open what happens when a checkpoint is used that an earlier one has
swallowed. `Loose` does not: a checkpoint stands for a node, and using it wraps this node and
everything after it on the same level, wherever that is by now. What `Loose` leaves open is only what
comes after such a use deep inside of what has been built, as long as neither the innermost open node
has been closed nor another checkpoint has been used on its level: adding a node there.
-/

namespace Syntree

variable {α : Type}

/-- The element with the id `i`, with everything after it on the same level. -/
def Forest.fromId (i : Nat) : Forest (Lab α) → Forest (Lab α)
  | .nil => .nil
  | .cons x k r =>
    if x.id = i then .cons x k r else if i ∈ k.ids then k.fromId i else r.fromId i

/-- The element with the id `i` and everything after it on the same level are put into `new`. -/
def Forest.wrapFrom (i : Nat) (new : Lab α) : Forest (Lab α) → Forest (Lab α)
  | .nil => .nil
  | .cons x k r =>
    if x.id = i then .single new (.cons x k r)
    else if i ∈ k.ids then .cons x (k.wrapFrom i new) r else .cons x k (r.wrapFrom i new)

/-- The parent of the element with the id `i`; `top` for the outermost level. -/
def Forest.parentOf (i : Nat) : Option Nat → Forest (Lab α) → Option Nat
  | _, .nil => none
  | top, .cons x k r =>
    if x.id = i then top
    else if i ∈ k.ids then k.parentOf i (some x.id) else r.parentOf i top

/-- What a checkpoint stands for: the node with the id `node`; it can be used while the node `level`
is being built (`none`: the root level). `born` is when it was taken: after so many nodes had been
made, and while this node was being built. -/
structure Place where
  born : Nat × Option Nat
  node : Nat
  level : Option Nat
  deriving DecidableEq, Repr

/-- The state of the specification: a `Nest` whose marks are not used, a place for every checkpoint,
and whether it is known where the next node goes. -/
structure Loose (α : Type) where
  base : Nest α
  places : List Place
  tidy : Bool
  deriving DecidableEq, Repr

namespace Loose

def init : Loose α := ⟨.init, [], true⟩

/-- Wrap the node that `p` stands for, and what follows it. All checkpoints taken when `p` was taken
then stand for the new node. -/
def wrapAt (n : Loose α) (p : Place) (d : α) (explicit : Option Span) : Loose α where
  base := { n.base with
    cur := n.base.cur.wrapFrom p.node
      ⟨n.base.count, d, explicit.getD (Nest.stretch (n.base.cur.fromId p.node))⟩
    count := n.base.count + 1 }
  places := n.places.map fun q =>
    if q.born = p.born then
      { q with node := n.base.count, level := n.base.cur.parentOf p.node n.base.frame }
    else q
  tidy := decide (p.node ∈ n.base.cur.topIds)

def closeAt (fl : Flavor) (n : Loose α) (k : Nat) (d : α) (explicit : Option Span) :
    Option (Loose α × Except Err Out) :=
  match n.places[k]? with
  | none => some (n, .ok .unit)
  | some p =>
    if p.level ≠ n.base.frame then some (n, .error .closeAtError)
    else if n.base.full fl then some (n, .error .overflow)
    else if p.node = n.base.count then
      -- nothing has been added since
      if n.tidy then
        some ({ n with base := n.base.addLeaf d (explicit.getD (Span.point n.base.cursor)) },
          .ok (.id n.base.count))
      else none
    else some (n.wrapAt p d explicit, .ok (.id n.base.count))

/-- One call. -/
def step (fl : Flavor) (n : Loose α) : Op α → Option (Loose α × Except Err Out)
  | .checkpoint => some <|
    if n.base.full fl then (n, .error .overflow)
    else
      ({ n with places := n.places ++
          [⟨(n.base.count, n.base.frame), n.base.count, n.base.frame⟩] },
        .ok (.handle n.places.length))
  | .closeAt k d => n.closeAt fl k d none
  | .closeAtWith k d sp => n.closeAt fl k d (some sp)
  | .setCursor i => some ({ n with base := { n.base with cursor := i } }, .ok .unit)
  | .close =>
    (n.base.step fl .close).map fun r =>
      (⟨r.1, n.places, n.tidy || ! n.base.stack.isEmpty⟩, r.2)
  | op =>
    if n.tidy then (n.base.step fl op).map fun r => (⟨r.1, n.places, true⟩, r.2) else none

/-- A whole history, with the results of its calls. -/
def run (fl : Flavor) : Loose α → List (Op α) → Option (Loose α × List (Except Err Out))
  | n, [] => some (n, [])
  | n, op :: ops =>
    match n.step fl op with
    | none => none
    | some (n, o) =>
      match run fl n ops with
      | none => none
      | some (n, os) => some (n, o :: os)

end Loose

/-- The call history `ops` on a new builder is one that `Loose` covers, it ends with no node open, `t`
is what `build()` returns and `F` is the nested list that `Loose` says has been built. Calls of the
history may fail. -/
def BuiltFreely (fl : Flavor) (ops : List (Op α)) (t : Tree α) (F : Forest (Lab α)) : Prop :=
  ∃ n os, Loose.init.run fl ops = some (n, os) ∧ n.base.stack = [] ∧ n.base.cur = F ∧
    (Sys.init.run fl ops).1.b.build = .ok t

end Syntree
