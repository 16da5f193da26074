import Verif.Spec.History

/-! # Cursor driven calls, written out with explicit spans -/

namespace Syntree

variable {α : Type}

/-- The call with its span written out: `c` is what `cursor()` says just before the call, and
`starts[k]` what it said when checkpoint `k` was taken. -/
def Op.spelled (fl : Flavor) (c : Nat) (starts : List Nat) : Op α → Op α
  | .open d => .openWith d ⟨c, c⟩
  | .token d len => .tokenWith d ⟨c, c + Op.len fl (.token d len)⟩
  | .tokenEmpty d => .tokenWith d ⟨c, c⟩
  | .closeAt k d => .closeAtWith k d ⟨(starts[k]?).getD c, c⟩
  | op => op

/-- What the client notes down at a call that returned `o` while the cursor was at `c`. -/
def notedAt (starts : List Nat) (c : Nat) : Except Err Out → List Nat
  | .ok (.handle _) => starts ++ [c]
  | _ => starts

/-- A history with all spans written out, as a client would do who looks at `cursor()` before each
of the calls. -/
def spelled (fl : Flavor) : Sys α → List Nat → List (Op α) → List (Op α)
  | _, _, [] => []
  | s, starts, op :: ops =>
    op.spelled fl s.b.cursor starts :: spelled fl (s.step fl op).1
      (notedAt starts s.b.cursor (s.step fl op).2) ops

end Syntree
