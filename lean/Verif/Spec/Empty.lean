import Verif.Model.Builder

/-! # Forgetting spans -/

namespace Syntree

variable {α : Type}

/-- A node without its span. -/
def Links.bare (l : Links α) : Links α := { l with span := ⟨0, 0⟩ }

/-- A tree without spans and span index; the structure and the values are kept. -/
def Tree.bare (t : Tree α) : Tree α := ⟨t.nodes.map Links.bare, ⟨0, 0⟩, [], t.first, t.last⟩

/-- The call as it is written with the `Empty` index, where `Empty` (here `0`) is the only value. -/
def Op.bare : Op α → Op α
  | .openWith d _ => .openWith d ⟨0, 0⟩
  | .tokenWith d _ => .tokenWith d ⟨0, 0⟩
  | .closeAtWith k d _ => .closeAtWith k d ⟨0, 0⟩
  | .setCursor _ => .setCursor 0
  | op => op

/-- The flavor with the same pointers, the `Empty` index and no span index. -/
def Flavor.emptied (fl : Flavor) : Flavor := ⟨.empty, fl.width, false⟩

/-- The `Empty` index with any pointers and any kind of span index. -/
def Flavor.isEmpty (fl : Flavor) : Prop := fl.ik = .empty

/-- The call does not run out of the index range when the cursor is at `c`. -/
def IndexOk (fl : Flavor) (c : Nat) : Op α → Prop
  | .token _ len => fl.ik.lenIsEmpty len = true ∨ (fl.ik.checkedAddLen c len).isSome = true
  | _ => True

end Syntree

/-- The flavor with the same index and pointers, but without a span index (`EmptyVec`). -/
def Syntree.Flavor.unindexed (fl : Syntree.Flavor) : Syntree.Flavor := ⟨fl.ik, fl.width, false⟩

/-- A tree without its span index. -/
def Syntree.Tree.noIdx {α : Type} (t : Syntree.Tree α) : Syntree.Tree α :=
  ⟨t.nodes, t.span, [], t.first, t.last⟩
