import Verif.Spec.Nested
import Verif.Model.Node

/-! # What "a tree made by a builder" means in the theorems -/

namespace Syntree

variable {α : Type}

/-- The call history `ops` on a new builder is one the specification covers (no swallowed
checkpoint is used), it ends with no node open, `t` is what `build()` returns and `F` is the nested
list that the specification says has been built. Calls of the history may fail. -/
def Built (fl : Flavor) (ops : List (Op α)) (t : Tree α) (F : Forest (Lab α)) : Prop :=
  ∃ n os, Nest.init.run fl ops = some (n, os) ∧ n.built = .ok F ∧
    (Sys.init.run fl ops).1.b.build = .ok t

/-- What the deque view of a list hands out: `true` asks for the front, `false` for the back. -/
def takeEnds {β : Type} : List Bool → List β → List (Option β)
  | [], _ => []
  | true :: bs, l => l.head? :: takeEnds bs l.tail
  | false :: bs, l => l.getLast? :: takeEnds bs l.dropLast

/-- Run a double-ended iterator with a sequence of calls, `true` being `next` and `false`
`next_back`. -/
def runEnds {σ β : Type} (next back : NextFn σ β) : List Bool → σ → List (Got β)
  | [], _ => []
  | b :: bs, s =>
    let r := if b then next s else back s
    r.2 :: runEnds next back bs r.1

/-- Everything a client sees by walking over a tree with depths: for every node in the order of the
walk its depth, its id, and what `value()` and `span()` return. `none` stands for a walk that does
not end within `len() + 1` steps. -/
def Tree.listing (t : Tree α) : Option (List (Int × Nat × Option α × Option Span)) :=
  forLoop (WithDepths.next t.nodes)
    (fun p => (p.1, p.2, nodeValue t.nodes p.2, nodeSpan t.nodes p.2)) (t.len + 1) t.walk

/-- The same for a nested list. -/
def Forest.listing (F : Forest (Lab α)) : List (Int × Nat × Option α × Option Span) :=
  (F.depths 0).map fun p => ((p.1 : Int), p.2.id, some p.2.data, some p.2.span)

end Syntree
