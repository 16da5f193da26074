import Verif.Spec.Spans
import Verif.Spec.History

/-!
# A history seen from a place further on

`ops.shift k` are the same calls, but with the checkpoints numbered from `k` on; ids and spans are
moved by adding a constant.
-/

namespace Syntree

variable {α : Type}

/-- The checkpoints of the history are numbered from `k` on. -/
def Op.shift (k : Nat) : Op α → Op α
  | .closeAt j d => .closeAt (j + k) d
  | .closeAtWith j d sp => .closeAtWith (j + k) d sp
  | op => op

/-- The result of a call, with ids counted from `i` and checkpoints from `k`. -/
def Out.shift (i k : Nat) : Out → Out
  | .id n => .id (n + i)
  | .handle j => .handle (j + k)
  | .unit => .unit

def Span.shift (c : Nat) (sp : Span) : Span := ⟨sp.start + c, sp.stop + c⟩

/-- The node with another id and further on in the text. -/
def Lab.shift (i c : Nat) (x : Lab α) : Lab α := ⟨x.id + i, x.data, x.span.shift c⟩

/-- There is room for `count` nodes and one more, and for text of length `len` from `cursor` on. -/
def RoomFor (fl : Flavor) (count cursor len : Nat) : Prop :=
  count < 2 ^ fl.width - 1 ∧ ∀ w, fl.ik = .bits w → cursor + len < 2 ^ w

end Syntree
