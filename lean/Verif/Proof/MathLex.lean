import Verif.Proof.CalcLex
import Verif.Spec.Math

/-! The lexer of the math example. -/

namespace Syntree.Math

open Calc (Stops exists_run digit_facts)

/-- The lexer is in front of `rest`, which starts at offset `pos`. -/
def Lexer.At (l : Lexer) (pos : Nat) (rest : Text) : Prop :=
  l.it = charIndices pos rest ∧ l.len = pos + Text.bytes rest

theorem Lexer.At.new (source : Text) : (Lexer.new source).At 0 source :=
  ⟨rfl, by simp [Lexer.new]⟩

theorem charIndices_append (pos : Nat) (a b : Text) :
    charIndices pos (a ++ b) = charIndices pos a ++ charIndices (pos + Text.bytes a) b := by
  induction a generalizing pos with
  | nil => simp [charIndices]
  | cons c a ih => simp only [List.cons_append, charIndices, ih, bytes_cons, Nat.add_assoc]

theorem charIndices_length (pos : Nat) (a : Text) : (charIndices pos a).length = a.length := by
  induction a generalizing pos with
  | nil => rfl
  | cons c a ih => simp [charIndices, ih]

theorem charIndices_head (pos : Nat) (a : Text) :
    (charIndices pos a).head? = a.head?.map (fun c => (pos, c)) := by
  cases a <;> rfl

theorem eat_run {cond : Char → Bool} {run rest : Text} (pos : Nat) (h : ∀ c ∈ run, cond c)
    (hs : Stops cond rest) : eat cond (charIndices pos (run ++ rest)) =
      charIndices (pos + Text.bytes run) rest := by
  induction run generalizing pos with
  | nil =>
    cases rest with
    | nil => rfl
    | cons c rest =>
      have := hs c rfl
      simp only [List.nil_append, bytes_nil, Nat.add_zero, charIndices, eat, this]
      rfl
  | cons c run ih =>
    have := h c (by simp)
    simp only [List.cons_append, charIndices, eat, this, if_true, bytes_cons]
    rw [ih _ (fun x hx => h x (by simp [hx])), Nat.add_assoc]

theorem symbol_facts {c : Char} {k : Syn} (h : symbol c = some k) :
    isWhitespace c = false ∧ ∀ it, scan c it = (it, k) := by
  unfold symbol at h
  split at h <;> cases h <;> exact ⟨by decide, fun l => rfl⟩

theorem symbol_none {c : Char} (h : symbol c = none) :
    c ≠ '+' ∧ c ≠ '-' ∧ c ≠ '/' ∧ c ≠ '*' := by
  refine ⟨?_, ?_, ?_, ?_⟩ <;> rintro rfl <;> exact absurd h (by decide)

theorem digit_symbol {c : Char} (h : isDigit c = true) : symbol c = none := by
  have hn : 0x30 ≤ c.toNat ∧ c.toNat ≤ 0x39 := by simpa [isDigit] using h
  unfold symbol
  split <;> first | rfl | (exfalso; revert hn; decide)

/-- One token. -/
theorem Lexer.At.next {l : Lexer} {pos : Nat} {rest : Text} {p : Syn × Text}
    {ps : List (Syn × Text)} (h : l.At pos rest) (hl : Lexed rest (p :: ps)) :
    ∃ l' rest', l.next = (l', some (tokenOf p)) ∧ rest = p.2 ++ rest' ∧
      l'.At (pos + Text.bytes p.2) rest' ∧ Lexed rest' ps ∧ p.2 ≠ [] := by
  obtain ⟨it, len⟩ := l
  obtain ⟨h1, h2⟩ := h
  simp only at h1 h2
  have key : ∀ (c : Char) (k : Syn) (run rest' : Text), rest = (c :: run) ++ rest' →
      scan c (charIndices (pos + c.utf8Size) (run ++ rest')) =
        (charIndices (pos + Text.bytes (c :: run)) rest', k) →
      (⟨it, len⟩ : Lexer).next = (⟨charIndices (pos + Text.bytes (c :: run)) rest', len⟩,
        some (tokenOf (k, c :: run))) := by
    intro c k run rest' e hs
    unfold Lexer.next
    simp only [h1, e, List.cons_append, charIndices, hs, charIndices_head, tokenOf]
    congr 3
    rw [h2, e]
    cases rest' with
    | nil =>
      simp only [List.head?_nil, Option.map_none, List.append_nil]
      exact Nat.add_sub_cancel_left ..
    | cons x r =>
      simp only [List.head?_cons, Option.map_some]
      exact Nat.add_sub_cancel_left ..
  have fin : ∀ (run rest' : Text), rest = run ++ rest' →
      (⟨charIndices (pos + Text.bytes run) rest', len⟩ : Lexer).At (pos + Text.bytes run) rest' :=
    fun run rest' e => ⟨rfl, by rw [h2, e, bytes_append]; simp only; omega⟩
  cases hl with
  | @symbol c k rest _ hk hr =>
    exact ⟨_, rest, key c k [] rest rfl (by rw [(symbol_facts hk).2]; simp), rfl, fin [c] rest rfl,
      hr, by simp⟩
  | @whitespace c run rest _ hw hs hr =>
    refine ⟨_, rest, key c .whitespace run rest rfl ?_, rfl, fin (c :: run) rest rfl, hr, by simp⟩
    unfold scan
    rw [if_pos (hw c (by simp)), eat_run _ (fun x hx => hw x (by simp [hx])) hs, bytes_cons,
      Nat.add_assoc]
  | @number c run rest _ hd hw hs hr =>
    refine ⟨_, rest, key c .number run rest rfl ?_, rfl, fin (c :: run) rest rfl, hr, by simp⟩
    have hws := (digit_facts hd).1
    obtain ⟨s1, s2, s3, s4⟩ := symbol_none (digit_symbol hd)
    have := eat_run (cond := isNumeric) (pos + c.utf8Size) hw hs
    unfold scan
    simp only [hws, s1, s2, s3, s4, hd, if_true, if_false, Bool.false_eq_true]
    rw [bytes_cons, ← Nat.add_assoc, ← this]
    rfl
  | @error c run rest _ ho hk hd hw hs hr =>
    refine ⟨_, rest, key c .error run rest rfl ?_, rfl, fin (c :: run) rest rfl, hr, by simp⟩
    obtain ⟨s1, s2, s3, s4⟩ := symbol_none hk
    unfold scan
    simp only [ho, s1, s2, s3, s4, hd, if_false, Bool.false_eq_true]
    rw [eat_run _ (by intro x hx; simp [hw x hx]) hs, bytes_cons, Nat.add_assoc]

theorem Lexer.At.done {l : Lexer} {pos : Nat} (h : l.At pos []) : l.next = (l, none) := by
  unfold Lexer.next
  rw [h.1]; rfl

theorem Lexed.exists_aux : ∀ (n : Nat) (cs : Text), cs.length ≤ n → ∃ ps, Lexed cs ps := by
  intro n
  induction n with
  | zero => intro cs h; cases cs with
    | nil => exact ⟨[], .nil⟩
    | cons => simp at h
  | succ n ih =>
    intro cs h
    cases cs with
    | nil => exact ⟨[], .nil⟩
    | cons c cs =>
      simp only [List.length_cons] at h
      cases hk : Math.symbol c with
      | some k =>
        obtain ⟨ps, hp⟩ := ih cs (by omega)
        exact ⟨_, .symbol hk hp⟩
      | none =>
        have sub : ∀ {run rest : Text}, cs = run ++ rest → ∃ ps, Lexed rest ps := fun e =>
          ih _ (by have := congrArg List.length e; simp at this; omega)
        cases hw : isWhitespace c with
        | true =>
          obtain ⟨run, rest, e, h1, h2⟩ := exists_run isWhitespace cs
          obtain ⟨ps, hp⟩ := sub e
          rw [e]
          exact ⟨_, .whitespace (by simpa [hw] using h1) h2 hp⟩
        | false =>
          cases hd : isDigit c with
          | true =>
            obtain ⟨run, rest, e, h1, h2⟩ := exists_run isNumeric cs
            obtain ⟨ps, hp⟩ := sub e
            rw [e]
            exact ⟨_, .number hd h1 h2 hp⟩
          | false =>
            obtain ⟨run, rest, e, h1, h2⟩ := exists_run (fun c => !isWhitespace c) cs
            obtain ⟨ps, hp⟩ := sub e
            rw [e]
            exact ⟨_, .error hw hk hd (by simpa using h1) h2 hp⟩

theorem Lexed.total (cs : Text) : ∃ ps, Lexed cs ps := Lexed.exists_aux cs.length cs (Nat.le_refl _)

theorem Lexed.texts {cs : Text} {ps : List (Syn × Text)} (h : Lexed cs ps) :
    (ps.map (·.2)).flatten = cs := by
  induction h with
  | nil => rfl
  | symbol _ _ ih => simp [ih]
  | whitespace _ _ _ ih => simp [ih]
  | number _ _ _ _ ih => simp [ih]
  | error _ _ _ _ _ _ ih => simp [ih]

theorem Lexed.length_le {cs : Text} {ps : List (Syn × Text)} (h : Lexed cs ps) :
    ps.length ≤ cs.length := by
  induction h with
  | nil => simp
  | symbol _ _ ih => simp; omega
  | whitespace _ _ _ ih => simp; omega
  | number _ _ _ _ ih => simp; omega
  | error _ _ _ _ _ _ ih => simp; omega

theorem Lexed.ne_nil {cs : Text} {ps : List (Syn × Text)} (h : Lexed cs ps) :
    ∀ p ∈ ps, p.2 ≠ [] := by
  induction h with
  | nil => simp
  | symbol _ _ ih => simpa using ih
  | whitespace _ _ _ ih => simpa using ih
  | number _ _ _ _ ih => simpa using ih
  | error _ _ _ _ _ _ ih => simpa using ih

/-- A maximal run is unique. -/
theorem run_unique {p : Char → Bool} {a b x y : Text} (h : a ++ x = b ++ y) (ha : ∀ c ∈ a, p c)
    (hx : Stops p x) (hb : ∀ c ∈ b, p c) (hy : Stops p y) : a = b ∧ x = y := by
  induction a generalizing b with
  | nil =>
    cases b with
    | nil => exact ⟨rfl, h⟩
    | cons c b =>
      have h1 := hx c (by rw [show x = _ from h]; rfl)
      rw [hb c (by simp)] at h1; simp at h1
  | cons c a ih =>
    cases b with
    | nil =>
      have h1 := hy c (by rw [← show _ = y from h]; rfl)
      rw [ha c (by simp)] at h1; simp at h1
    | cons d b =>
      simp only [List.cons_append, List.cons.injEq] at h
      obtain ⟨rfl, h⟩ := h
      obtain ⟨rfl, rfl⟩ := ih h (fun z hz => ha z (by simp [hz])) (fun z hz => hb z (by simp [hz]))
      exact ⟨rfl, rfl⟩

/-- The lexer hands out the tokens of the pieces. -/
theorem Lexer.At.yields : ∀ (ps : List (Syn × Text)) {l : Lexer} {pos : Nat} {rest : Text},
    l.At pos rest → Lexed rest ps → Yields Lexer.iter l (ps.map tokenOf) := by
  intro ps
  induction ps with
  | nil =>
    intro l pre rest h hl
    cases hl
    exact .done (s' := l) (by unfold Lexer.iter; rw [h.done]; rfl)
  | cons p ps ih =>
    intro l pre rest h hl
    obtain ⟨l', rest', e, _, a, hr, _⟩ := h.next hl
    exact .item (s' := l') (by unfold Lexer.iter; rw [e]; rfl) (ih a hr)

/-- The bytes of a list of pieces. -/
def lens (ps : List (Syn × Text)) : Nat := (ps.map (fun p => Text.bytes p.2)).sum

@[simp] theorem lens_nil : lens [] = 0 := rfl
@[simp] theorem lens_cons (p : Syn × Text) (ps : List (Syn × Text)) :
    lens (p :: ps) = Text.bytes p.2 + lens ps := by simp [lens]
theorem lens_append (a b : List (Syn × Text)) : lens (a ++ b) = lens a + lens b := by simp [lens]

theorem lens_texts (ps : List (Syn × Text)) : Text.bytes (ps.map (·.2)).flatten = lens ps := by
  induction ps with
  | nil => rfl
  | cons p ps ih => simp only [List.map_cons, List.flatten_cons, bytes_append, ih, lens_cons]

theorem lay_append (a : Nat) (ps qs : List (Syn × Text)) :
    lay a (ps ++ qs) = lay a ps ++ lay (a + lens ps) qs := by
  induction ps generalizing a with
  | nil => simp [lay]
  | cons t ts ih => simp only [List.cons_append, lay, ih, lens_cons, Nat.add_assoc]

end Syntree.Math
