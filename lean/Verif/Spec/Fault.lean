import Verif.Model.Fault
import Verif.Spec.History

/-! # Vocabulary about storage that fails -/

namespace Syntree

variable {α : Type}

/-- The calls of a history that succeeded; `os` are the results of the calls. -/
def succeeded (ops : List (Op α)) (os : List (Except FErr Out)) : List (Op α) :=
  (ops.zip os).filterMap fun p =>
    match p.2 with
    | .ok _ => some p.1
    | .error _ => none

/-- The results of the calls that succeeded. -/
def goodResults (os : List (Except FErr Out)) : List (Except Err Out) :=
  os.filterMap fun o =>
    match o with
    | .ok r => some (.ok r)
    | .error _ => none

/-- Does the call add an entry to the index (if the flavor keeps one)? -/
def Op.indexed (fl : Flavor) : Op α → Bool
  | .token _ len => ! fl.ik.lenIsEmpty len
  | .tokenWith _ _ => true
  | _ => false

/-- The storage would refuse what the call asks of it. -/
def Refuses (fl : Flavor) (ft : Faults) (s : FSys α) (op : Op α) : Prop :=
  ft.node s.f.tries.node s.f.b.tree.nodes.length = true ∨
    (op.indexed fl = true ∧ fl.keepIdx = true ∧
      ft.index s.f.tries.index s.f.b.tree.indexes.length = true)

/-- What a call that fails because the storage fails leaves behind: `StorageFailed fl s op s'` if
the call `op` on the builder (and checkpoints) `s` may fail this way and leave `s'`. -/
inductive StorageFailed (fl : Flavor) (s : Sys α) : Op α → Sys α → Prop where
  /-- the node could not be stored: the tree, the cursor and the open nodes are unchanged, but the
  builder has forgotten the node after which the next one is to be linked -/
  | node (op : Op α) : (∀ d len, op = .token d len → fl.ik.lenIsEmpty len = true) →
      StorageFailed fl s op { s with b := { s.b with sibling := none } }
  /-- a token could not be stored: in addition, the cursor and the end of the span of the tree have
  moved on -/
  | token (d : α) (len c : Nat) : fl.ik.lenIsEmpty len = false →
      fl.ik.checkedAddLen s.b.cursor len = some c →
      StorageFailed fl s (.token d len) { s with b := { s.b with
        sibling := none, cursor := c, tree := { s.b.tree with span := ⟨s.b.tree.span.start, c⟩ } } }
  /-- the index entry of a token could not be stored: everything but the entry is as if the call had
  succeeded -/
  | tokenIndex (d : α) (len i : Nat) : (s.step fl (.token d len)).2 = .ok (.id i) →
      StorageFailed fl s (.token d len)
        (let r := (s.step fl (.token d len)).1
         { r with b := { r.b with tree := { r.b.tree with indexes := s.b.tree.indexes } } })
  /-- the index entry of a token with a span could not be stored: the node is in the tree as a
  childless node, but the span of the node it is in has only been given a new end, and the cursor has
  not moved -/
  | tokenWithIndex (d : α) (sp : Span) (i : Nat) :
      (s.step fl (.openWith d sp)).2 = .ok (.id i) →
      StorageFailed fl s (.tokenWith d sp)
        (let r := (s.step fl (.openWith d sp)).1
         { r with b := { r.b with parent := s.b.parent, sibling := some i } })
  /-- `close_at` could not store the wrapper: all links are as if it had succeeded, but the wrapper
  is not there -/
  | wrapper (op : Op α) (i : Nat) : op.isCloseAt = true → (s.step fl op).2 = .ok (.id i) →
      StorageFailed fl s op { s with b := { s.b with
        tree := { (s.step fl op).1.b.tree with
          nodes := (s.step fl op).1.b.tree.nodes.dropLast } } }

end Syntree
