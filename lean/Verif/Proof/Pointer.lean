import Verif.Model.Pointer

/-! Lemmas about pointers. -/

namespace Syntree

theorem RawPtr.new_eq (w v : Nat) :
    RawPtr.new w v = if v < 2 ^ w - 1 then some ⟨v + 1⟩ else none := by
  have hp : 0 < 2 ^ w := Nat.two_pow_pos w
  unfold RawPtr.new
  by_cases h : v < 2 ^ w
  · rw [if_pos h]
    by_cases h' : v < 2 ^ w - 1
    · have : (v + 1) % 2 ^ w = v + 1 := Nat.mod_eq_of_lt (by omega)
      simp [h', this]
    · have : v + 1 = 2 ^ w := by omega
      simp [this, h']
  · rw [if_neg h, if_neg (by omega)]

theorem ptrNew_eq (w v : Nat) : ptrNew w v = if v < 2 ^ w - 1 then some v else none := by
  have hp : 0 < 2 ^ w := Nat.two_pow_pos w
  unfold ptrNew
  rw [RawPtr.new_eq]
  by_cases h : v < 2 ^ w - 1
  · simp only [h, if_true, Option.map_some]
    have : v + 1 + (2 ^ w - 1) = v + 2 ^ w := by omega
    rw [this, Nat.add_mod_right, Nat.mod_eq_of_lt (by omega)]
  · simp [h]

end Syntree
