import Verif.Spec.Chars

namespace Syntree

theorem char_ext {c d : Char} (h : c.toNat = d.toNat) : c = d := Char.ext (UInt32.toNat_inj.1 h)

theorem range_iff (l : List Char) (p : Nat → Bool) (c : Char)
    (h : ∀ n, p n = true ↔ n ∈ l.map Char.toNat) : p c.toNat = true ↔ c ∈ l := by
  rw [h, List.mem_map]
  constructor
  · rintro ⟨d, hd, e⟩
    rw [char_ext e] at hd
    exact hd
  · intro hc
    exact ⟨c, hc, rfl⟩

theorem isDigit_iff (c : Char) : isDigit c = true ↔ c ∈ digitChars := by
  refine range_iff digitChars (fun n => 0x30 ≤ n && n ≤ 0x39) c ?_
  intro n
  simp [digitChars]
  omega

theorem isLower_iff (c : Char) : Synth.isLower c = true ↔ c ∈ lowerChars := by
  refine range_iff lowerChars (fun n => 0x61 ≤ n && n ≤ 0x7A) c ?_
  intro n
  simp [lowerChars]
  omega

theorem isAlpha_iff (c : Char) : Synth.isAlpha c = true ↔ c ∈ upperChars ++ lowerChars := by
  unfold Synth.isAlpha
  rw [Bool.or_eq_true, isLower_iff, List.mem_append]
  refine or_congr ?_ Iff.rfl
  refine range_iff upperChars (fun n => 0x41 ≤ n && n ≤ 0x5A) c ?_
  intro n
  simp [upperChars]
  omega

theorem isWhitespace_iff (c : Char) : isWhitespace c = true ↔ c ∈ whiteChars := by
  refine range_iff whiteChars (fun n => (0x9 ≤ n && n ≤ 0xD) || n == 0x20 || n == 0x85 || n == 0xA0 ||
    n == 0x1680 || (0x2000 ≤ n && n ≤ 0x200A) || n == 0x2028 || n == 0x2029 || n == 0x202F ||
    n == 0x205F || n == 0x3000) c ?_
  intro n
  simp [whiteChars]
  omega

theorem decimal_snoc (ds : Text) (c : Char) :
    decimal (ds ++ [c]) = 10 * decimal ds + (c.toNat - 0x30) := by
  simp [decimal]

theorem digit_value : ∀ d, d < 10 → (digitChars.getD d '0').toNat - 0x30 = d := by decide

theorem digit_isDigit : ∀ d, d < 10 → isDigit (digitChars.getD d '0') = true := by decide

theorem spell_spec (n : Nat) : decimal (spell n) = n ∧ spell n ≠ [] ∧ ∀ c ∈ spell n, isDigit c = true := by
  induction n using Nat.strongRecOn with
  | _ n ih =>
    unfold spell
    split
    · rename_i h
      have h1 := digit_value n h
      have h2 := digit_isDigit n h
      generalize digitChars.getD n '0' = c at h1 h2
      refine ⟨?_, by simp, by simpa using h2⟩
      simp [decimal, h1]
    · rename_i h
      have hlt : n % 10 < 10 := Nat.mod_lt _ (by omega)
      have h1 := digit_value _ hlt
      have h2 := digit_isDigit _ hlt
      generalize digitChars.getD (n % 10) '0' = c at h1 h2
      obtain ⟨i1, i2, i3⟩ := ih (n / 10) (by omega)
      refine ⟨?_, by simp, ?_⟩
      · rw [decimal_snoc, i1, h1]; omega
      · intro d hd
        rcases List.mem_append.1 hd with hd | hd
        · exact i3 d hd
        · simp only [List.mem_singleton] at hd; rw [hd]; exact h2

/-- A spelled number is read back. -/
theorem parse_spell (n : Nat) : parseI64 (spell n) = if n < 2 ^ 63 then some (n : Int) else none := by
  obtain ⟨h1, h2, h3⟩ := spell_spec n
  have hall : (spell n).all isDigit = true := by simpa using h3
  have hne : (spell n).isEmpty = false := by cases hs : spell n with
    | nil => exact absurd hs h2
    | cons => rfl
  have key : ∀ ds : Text, ds = spell n →
      (if ds.isEmpty || !ds.all isDigit then none
      else if inI64 (1 * (decimal ds : Int)) then some (1 * (decimal ds : Int)) else none) =
      if n < 2 ^ 63 then some (n : Int) else none := by
    rintro ds rfl
    rw [hall, hne, h1]
    simp only [Bool.not_true, Bool.or_self, Bool.false_eq_true, if_false, Int.one_mul]
    have : inI64 (n : Int) = decide (n < 2 ^ 63) := by
      unfold inI64
      by_cases hn : n < 2 ^ 63
      · have a : (-(2 ^ 63) : Int) ≤ n := by omega
        have b : (n : Int) < 2 ^ 63 := by omega
        simp only [a, b, hn, decide_true, Bool.and_self]
      · have b : ¬ (n : Int) < 2 ^ 63 := by omega
        simp only [b, hn, decide_false, Bool.and_false]
    rw [this]
    by_cases hn : n < 2 ^ 63 <;> simp [hn]
  unfold parseI64
  split
  · rename_i ds e
    have := h3 '+' (by rw [e]; simp)
    exact absurd this (by decide)
  · rename_i ds e
    have := h3 '-' (by rw [e]; simp)
    exact absurd this (by decide)
  · exact key _ rfl

end Syntree
