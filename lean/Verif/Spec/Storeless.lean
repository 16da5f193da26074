import Verif.Model.Macro

/-!
# A builder that keeps no nodes, as a client sees it

All that is left of a builder: whether a node counts as open, the cursor, the end of the span of the
tree, and for every checkpoint handed out whether a node was open at the time.
-/

namespace Syntree

structure Husk where
  isOpen : Bool
  cursor : Nat
  stop : Nat
  marks : List Bool
  deriving DecidableEq, Repr

/-- A new builder. -/
def Husk.new : Husk := ⟨false, 0, 0, []⟩

/-- What a call does and returns. Every node has the id 0. -/
def Husk.step {α : Type} (ik : IndexKind) (h : Husk) : Op α → Husk × Except Err Out
  | .open _ => ({ h with isOpen := true }, .ok (.id 0))
  | .openWith _ _ => ({ h with isOpen := true }, .ok (.id 0))
  | .close =>
    if h.isOpen then ({ h with isOpen := false }, .error (.missingNode 0))
    else (h, .error .closeError)
  | .token _ len =>
    if ik.lenIsEmpty len then (h, .ok (.id 0))
    else match ik.checkedAddLen h.cursor len with
      | none => (h, .error .overflow)
      | some c => ({ h with cursor := c, stop := c }, .ok (.id 0))
  | .tokenEmpty _ => (h, .ok (.id 0))
  | .tokenWith _ span => ({ h with cursor := span.stop }, .ok (.id 0))
  | .checkpoint => ({ h with marks := h.marks ++ [h.isOpen] }, .ok (.handle h.marks.length))
  | .closeAt k _ | .closeAtWith k _ _ =>
    match h.marks[k]? with
    | none => (h, .ok .unit) -- no such checkpoint: cannot be written
    | some m => if m = h.isOpen then (h, .ok (.id 0)) else (h, .error .closeAtError)
  | .setCursor i => ({ h with cursor := i }, .ok .unit)

def Husk.run {α : Type} (ik : IndexKind) : Husk → List (Op α) → Husk × List (Except Err Out)
  | h, [] => (h, [])
  | h, op :: ops =>
    let (h, o) := h.step ik op
    let (h, os) := Husk.run ik h ops
    (h, o :: os)

/-- Is there an item with braces, `expr => { .. }`, in the literal? -/
def Lit.braces {α : Type} : Lit α → Bool
  | .nil => false
  | .node .. | .nodeWith .. => true
  | .token _ _ r | .tokenEmpty _ r | .tokenWith _ _ r => r.braces

end Syntree
