import Verif.Model.Text

/-! Byte offsets into texts. -/

namespace Syntree

theorem utf8_pos (c : Char) : 0 < c.utf8Size := Char.utf8Size_pos c

@[simp] theorem bytes_nil : Text.bytes [] = 0 := rfl
@[simp] theorem bytes_cons (c : Char) (cs : Text) :
    Text.bytes (c :: cs) = c.utf8Size + Text.bytes cs := rfl

theorem bytes_append (a b : Text) : Text.bytes (a ++ b) = Text.bytes a + Text.bytes b := by
  induction a with
  | nil => simp
  | cons c a ih => simp only [List.cons_append, bytes_cons, ih]; omega

theorem length_le_bytes (a : Text) : a.length ≤ Text.bytes a := by
  induction a with
  | nil => simp
  | cons c a ih => have := utf8_pos c; simp only [List.length_cons, bytes_cons]; omega

theorem dropBytes_append (a b : Text) : Text.dropBytes (Text.bytes a) (a ++ b) = some b := by
  induction a with
  | nil => cases b <;> rfl
  | cons c a ih =>
    have := utf8_pos c
    obtain ⟨n, hn⟩ : ∃ n, c.utf8Size + Text.bytes a = n + 1 :=
      ⟨c.utf8Size + Text.bytes a - 1, by omega⟩
    have h1 : c.utf8Size ≤ n + 1 := by omega
    have h2 : n + 1 - c.utf8Size = Text.bytes a := by omega
    simp only [bytes_cons, hn, List.cons_append, Text.dropBytes, if_pos h1, h2]
    exact ih

theorem takeBytes_append (a b : Text) : Text.takeBytes (Text.bytes a) (a ++ b) = some a := by
  induction a with
  | nil => cases b <;> rfl
  | cons c a ih =>
    have := utf8_pos c
    obtain ⟨n, hn⟩ : ∃ n, c.utf8Size + Text.bytes a = n + 1 :=
      ⟨c.utf8Size + Text.bytes a - 1, by omega⟩
    have h1 : c.utf8Size ≤ n + 1 := by omega
    have h2 : n + 1 - c.utf8Size = Text.bytes a := by omega
    simp only [bytes_cons, hn, List.cons_append, Text.takeBytes, if_pos h1, h2]
    rw [ih]; rfl

/-- The part between two character boundaries. -/
theorem get_append (a b c : Text) :
    Text.get (a ++ b ++ c) (Text.bytes a, Text.bytes a + Text.bytes b) = some b := by
  have h : Text.bytes a ≤ Text.bytes a + Text.bytes b := by omega
  have h2 : Text.bytes a + Text.bytes b - Text.bytes a = Text.bytes b := by omega
  simp only [Text.get, if_pos h, h2]
  rw [List.append_assoc, dropBytes_append]
  exact takeBytes_append b c

end Syntree
