import Verif.Proof.Large
import Verif.Proof.Synth
import Verif.Proof.Chars

/-!
# The synthetic strings example (C59)
-/

namespace Syntree.Synth

open Calc (Stops)

/-- C59: every text is cut into pieces (`Lexed`) in exactly one way; the pieces spell the text, and
none is empty. -/
theorem C59_pieces (source : Text) : ∃ ps, Lexed source ps ∧ (ps.map (·.2)).flatten = source ∧
    (∀ p ∈ ps, p.2 ≠ []) ∧ ∀ qs, Lexed source qs → qs = ps := by
  obtain ⟨ps, h⟩ := Lexed.total source
  exact ⟨ps, h, h.texts, h.ne_nil, fun qs h' => h'.unique h⟩

theorem lexed_demo : Lexed "a $fo é$x".toList [(.literal, ['a']), (.whitespace, [' ']),
    (.ref, ['$', 'f', 'o']), (.whitespace, [' ']), (.error, ['é', '$', 'x'])] :=
  .literal (run := []) (by simp; decide) (by simp [Stops]; decide)
    (.whitespace (run := []) (by simp; decide) (by simp [Stops]; decide)
      (.ref (name := ['f', 'o']) (by simp; decide) (by simp [Stops]; decide)
        (.whitespace (run := []) (by simp; decide) (by simp [Stops]; decide)
          (.error (run := ['$', 'x']) (by decide) (by decide) (by decide) (by simp; decide)
            (by simp [Stops]) .nil))))

/-- C59: for every list of definitions (a name may be defined again, and the last definition counts)
and every text of less than `2^32` bytes the program ends without a failure of the builder and
without a panic, and writes exactly the lines the text calls for: words and defined names numbered
from zero in the order of the text, with the word itself or what the name stands for, and an error
for every other piece that is not whitespace. In particular the value a token carries into the tree
is the value read back from the tree, and no line says that a name is missing. -/
theorem C59_run (defs : List (Text × Text)) {source : Text} {ps : List (Kind × Text)}
    (hb : Text.bytes source < 2 ^ 32) (hl : Lexed source ps) :
    run (storageOf defs) source = .ok (linesFor defs 0 ps) :=
  run_ok defs hb hl

example : run (storageOf [("fo".toList, "x".toList), ("b".toList, "z".toList),
      ("fo".toList, "y".toList)]) "a $fo é$x".toList =
    .ok [.value 0 ['a'], .value 1 ['y'], .error ['é', '$', 'x']] :=
  C59_run _ (by decide) lexed_demo

/-- C59: with a text of `2^32` bytes or more the program ends with the `Overflow` of the builder,
whatever is in the storage. -/
theorem C59_too_long (st : Storage) {source : Text} (hb : 2 ^ 32 ≤ Text.bytes source) :
    run st source = .error (.builder .overflow) := run_large st hb

example (n : Nat) (hn : 2 ^ 32 ≤ n) :
    run (storageOf []) (List.replicate n 'a') = .error (.builder .overflow) := by
  refine C59_too_long _ ?_
  have : ∀ n, Text.bytes (List.replicate n 'a') = n := by
    intro n
    induction n with
    | zero => rfl
    | succ n ih =>
      rw [List.replicate_succ, Text.bytes, ih]
      have : 'a'.utf8Size = 1 := by decide
      omega
  rw [this]; exact hn

/-- C59: no line reports a name that is missing from the storage. -/
theorem C59_found (defs : List (Text × Text)) {source : Text} (hb : Text.bytes source < 2 ^ 32) :
    ∃ lines, run (storageOf defs) source = .ok lines ∧
      ∀ line ∈ lines, ∀ n s, line ≠ .notFound n s := by
  obtain ⟨ps, hl⟩ := Lexed.total source
  refine ⟨_, run_ok defs hb hl, ?_⟩
  have : ∀ (ps : List (Kind × Text)) c, ∀ line ∈ linesFor defs c ps, ∀ n s, line ≠ .notFound n s := by
    intro ps
    induction ps with
    | nil => intro c line h; simp [linesFor] at h
    | cons p ps ih =>
      intro c line h
      obtain ⟨kind, text⟩ := p
      cases kind with
      | whitespace => exact ih c line (by simpa [linesFor] using h)
      | literal =>
        simp only [linesFor, List.mem_cons] at h
        rcases h with rfl | h
        · simp
        · exact ih _ line h
      | error =>
        simp only [linesFor, List.mem_cons] at h
        rcases h with rfl | h
        · simp
        · exact ih _ line h
      | ref =>
        simp only [linesFor] at h
        cases hm : meaning defs text.tail with
        | none =>
          simp only [hm, List.mem_cons] at h
          rcases h with rfl | h
          · simp
          · exact ih _ line h
        | some v =>
          simp only [hm, List.mem_cons] at h
          rcases h with rfl | h
          · simp
          · exact ih _ line h
  exact this ps 0

/-- With a storage that is not made by definitions there can be such a line. -/
example : ∃ st, run st "$a".toList = .ok [.notFound 0 "$a".toList] :=
  ⟨⟨[(['a'], 0)], []⟩, rfl⟩

/-- C59: whitespace, the letters of names and the letters of words, spelled out. -/
theorem C59_classes (c : Char) : (isWhitespace c = true ↔ c ∈ whiteChars) ∧
    (isLower c = true ↔ c ∈ lowerChars) ∧ (isAlpha c = true ↔ c ∈ upperChars ++ lowerChars) :=
  ⟨isWhitespace_iff c, isLower_iff c, isAlpha_iff c⟩

example : isAlpha 'Q' = true ∧ isLower 'Q' = false ∧ isAlpha 'é' = false :=
  ⟨(C59_classes 'Q').2.2.2 (by decide), by decide, by decide⟩

end Syntree.Synth
