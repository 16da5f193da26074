import Verif.Spec.History

/-!
Flavors that differ only in the size of the index and of the pointers.
-/

namespace Syntree

variable {α : Type}

/-- The flavors differ only in the size of the index, which is `i` bits in the first and `j` bits in
the second one, and in the size of the pointers. -/
structure Wider (a b : Flavor) (i j : Nat) : Prop where
  left : a.ik = .bits i
  right : b.ik = .bits j
  le : i ≤ j
  width : a.width ≤ b.width
  keep : a.keepIdx = b.keepIdx

/-- Why a call fails with `Overflow` in the smaller flavor: the pointers are used up, or it is a
token that does not fit into the index (and then nothing has changed). -/
def Short (a : Flavor) (i j : Nat) (s : Sys α) (op : Op α) : Prop :=
  2 ^ a.width - 1 ≤ s.b.tree.len ∨
  (s.step a op).1 = s ∧ ∃ d len, op = .token d len ∧ len ≠ 0 ∧ 2 ^ i ≤ s.b.cursor + len ∧
    s.b.cursor + len < 2 ^ j

end Syntree
