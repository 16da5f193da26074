import Verif.Proof.Text
import Verif.Spec.Calc

/-! The lexer of the calculator. -/

namespace Syntree.Calc

/-- The lexer is behind `pre` and in front of `rest`. -/
def Lexer.At (l : Lexer) (pre rest : Text) : Prop :=
  l.source = pre ++ rest ∧ l.cursor = Text.bytes pre

theorem Lexer.At.new (source : Text) : (Lexer.new source).At [] source := ⟨rfl, rfl⟩

theorem Lexer.At.peek {l : Lexer} {pre rest : Text} (h : l.At pre rest) :
    l.peek = rest.head? := by
  unfold Lexer.peek
  rw [h.1, h.2, dropBytes_append]; rfl

theorem Lexer.At.step {l : Lexer} {pre : Text} {c : Char} {rest : Text}
    (h : l.At pre (c :: rest)) : l.step.At (pre ++ [c]) rest := by
  unfold Lexer.step
  rw [h.peek]
  simp only [List.head?_cons]
  refine ⟨by rw [h.1]; simp, ?_⟩
  simp only [h.2, bytes_append, bytes_cons, bytes_nil]; omega

theorem Lexer.At.consumeLoop {cond : Char → Bool} {run : Text} :
    ∀ {fuel : Nat} {l : Lexer} {pre rest : Text}, l.At pre (run ++ rest) → (∀ c ∈ run, cond c) →
      Stops cond rest → run.length ≤ fuel → (Lexer.consumeLoop cond fuel l).At (pre ++ run) rest := by
  induction run with
  | nil =>
    intro fuel l pre rest h _ hs _
    rw [List.append_nil]
    cases fuel with
    | zero => exact h
    | succ fuel =>
      unfold Lexer.consumeLoop
      rw [h.peek, List.nil_append]
      cases hr : rest.head? with
      | none => exact h
      | some c => simp only [hs c hr]; exact h
  | cons c run ih =>
    intro fuel l pre rest h hc hs hf
    cases fuel with
    | zero => simp at hf
    | succ fuel =>
      unfold Lexer.consumeLoop
      rw [h.peek]
      simp only [List.cons_append, List.head?_cons, hc c (by simp), if_true]
      have := ih (fuel := fuel) (rest := rest) (by simpa using h.step)
        (fun x hx => hc x (by simp [hx])) hs (by simpa using hf)
      simpa using this

theorem Lexer.At.consumeWhile {cond : Char → Bool} {run : Text} {l : Lexer} {pre rest : Text}
    (h : l.At pre (run ++ rest)) (hc : ∀ c ∈ run, cond c) (hs : Stops cond rest) :
    (l.consumeWhile cond).At (pre ++ run) rest :=
  Lexer.At.consumeLoop h hc hs (by rw [h.1]; simp; omega)

theorem symbol_facts {c : Char} {k : Syn} (h : symbol c = some k) :
    isWhitespace c = false ∧ ∀ l : Lexer, l.scan c = (l.step, k) := by
  unfold symbol at h
  split at h <;> cases h <;> exact ⟨by decide, fun l => rfl⟩

theorem symbol_none {c : Char} (h : symbol c = none) :
    c ≠ '+' ∧ c ≠ '-' ∧ c ≠ '*' ∧ c ≠ '/' ∧ c ≠ '^' ∧ c ≠ '(' ∧ c ≠ ')' := by
  refine ⟨?_, ?_, ?_, ?_, ?_, ?_, ?_⟩ <;> rintro rfl <;> exact absurd h (by decide)

theorem digit_facts {c : Char} (h : isDigit c = true) :
    isWhitespace c = false ∧ symbol c = none := by
  have hn : 0x30 ≤ c.toNat ∧ c.toNat ≤ 0x39 := by simpa [isDigit] using h
  constructor
  · simp only [isWhitespace, Bool.or_eq_false_iff, Bool.and_eq_false_iff, decide_eq_false_iff_not,
      beq_eq_false_iff_ne]
    omega
  · unfold symbol
    split <;> first | rfl | (exfalso; revert hn; decide)

/-- One token. -/
theorem Lexer.At.next {l : Lexer} {pre rest : Text} {p : Syn × Text} {ps : List (Syn × Text)}
    (h : l.At pre rest) (hl : Lexed rest (p :: ps)) :
    ∃ l' rest', l.next = (l', some (tokenOf p)) ∧ rest = p.2 ++ rest' ∧ l'.At (pre ++ p.2) rest' ∧
      l'.source = l.source ∧ Lexed rest' ps ∧ p.2 ≠ [] := by
  have key : ∀ (c : Char) (l' : Lexer) (k : Syn) (run rest' : Text), rest = (c :: run) ++ rest' →
      l.scan c = (l', k) → l'.At (pre ++ (c :: run)) rest' →
      l.next = (l', some (tokenOf (k, c :: run))) ∧ l'.source = l.source := by
    intro c l' k run rest' e hs ha
    refine ⟨?_, by rw [ha.1, h.1, e]; simp⟩
    unfold Lexer.next
    rw [h.peek, e]
    simp only [List.cons_append, List.head?_cons, hs, tokenOf, ha.2, h.2, bytes_append]
    simp
  cases hl with
  | @symbol c k rest _ hk hr =>
    have a : l.step.At (pre ++ [c]) rest := h.step
    obtain ⟨e1, e2⟩ := key c l.step k [] rest rfl ((symbol_facts hk).2 l) a
    exact ⟨l.step, rest, e1, rfl, a, e2, hr, by simp⟩
  | @whitespace c run rest _ hw hs hr =>
    have a := (show l.step.At (pre ++ [c]) (run ++ rest) from h.step).consumeWhile
      (cond := isWhitespace) (fun x hx => hw x (by simp [hx])) hs
    rw [List.append_assoc] at a
    obtain ⟨e1, e2⟩ := key c _ .whitespace run rest rfl
      (by unfold Lexer.scan; rw [if_pos (hw c (by simp))]) a
    exact ⟨_, rest, e1, rfl, a, e2, hr, by simp⟩
  | @number c run rest _ hw hs hr =>
    have a := (show l.step.At (pre ++ [c]) (run ++ rest) from h.step).consumeWhile
      (cond := isDigit) (fun x hx => hw x (by simp [hx])) hs
    rw [List.append_assoc] at a
    have hd := hw c (by simp)
    obtain ⟨h1, h2⟩ := digit_facts hd
    have h3 := symbol_none h2
    obtain ⟨e1, e2⟩ := key c _ .number run rest rfl
      (by unfold Lexer.scan; simp only [h1, h3, hd, if_true, if_false, Bool.false_eq_true]) a
    exact ⟨_, rest, e1, rfl, a, e2, hr, by simp⟩
  | @error c run rest _ ho hw hs hr =>
    have ho' : (isWhitespace c = false ∧ symbol c = none) ∧ isDigit c = false := by
      simpa [isOther] using ho
    obtain ⟨⟨h1, h2⟩, h4⟩ := ho'
    have h3 := symbol_none h2
    have a := Lexer.At.consumeWhile (cond := fun c => !isWhitespace c) (run := c :: run)
      (rest := rest) h (by
        intro x hx
        rcases List.mem_cons.1 hx with rfl | hx
        · simp [h1]
        · simp [hw x hx]) hs
    obtain ⟨e1, e2⟩ := key c _ .error run rest rfl
      (by unfold Lexer.scan; simp only [h1, h3, h4, if_false, Bool.false_eq_true]) a
    exact ⟨_, rest, e1, rfl, a, e2, hr, by simp⟩

theorem Lexer.At.done {l : Lexer} {pre : Text} (h : l.At pre []) : l.next = (l, none) := by
  unfold Lexer.next
  rw [h.peek]; rfl

/-- The longest prefix whose characters satisfy `p`. -/
theorem exists_run (p : Char → Bool) (cs : Text) :
    ∃ run rest, cs = run ++ rest ∧ (∀ c ∈ run, p c) ∧ Stops p rest := by
  induction cs with
  | nil => exact ⟨[], [], rfl, by simp, by simp [Stops]⟩
  | cons c cs ih =>
    cases hc : p c with
    | false =>
      exact ⟨[], c :: cs, rfl, by simp, by
        intro x hx
        simp only [List.head?_cons, Option.some.injEq] at hx
        rw [← hx]; exact hc⟩
    | true =>
      obtain ⟨run, rest, e, h1, h2⟩ := ih
      refine ⟨c :: run, rest, by rw [e]; rfl, ?_, h2⟩
      intro x hx
      rcases List.mem_cons.1 hx with rfl | hx
      · exact hc
      · exact h1 x hx

/-- Every text can be cut. -/
theorem Lexed.exists_aux : ∀ (n : Nat) (cs : Text), cs.length ≤ n → ∃ ps, Lexed cs ps := by
  intro n
  induction n with
  | zero => intro cs h; cases cs with
    | nil => exact ⟨[], .nil⟩
    | cons => simp at h
  | succ n ih =>
    intro cs h
    cases cs with
    | nil => exact ⟨[], .nil⟩
    | cons c cs =>
      simp only [List.length_cons] at h
      cases hk : Calc.symbol c with
      | some k =>
        obtain ⟨ps, hp⟩ := ih cs (by omega)
        exact ⟨_, .symbol hk hp⟩
      | none =>
        have sub : ∀ {run rest : Text}, cs = run ++ rest → ∃ ps, Lexed rest ps := fun e =>
          ih _ (by have := congrArg List.length e; simp at this; omega)
        cases hw : isWhitespace c with
        | true =>
          obtain ⟨run, rest, e, h1, h2⟩ := exists_run isWhitespace cs
          obtain ⟨ps, hp⟩ := sub e
          rw [e]
          exact ⟨_, .whitespace (by simpa [hw] using h1) h2 hp⟩
        | false =>
          cases hd : isDigit c with
          | true =>
            obtain ⟨run, rest, e, h1, h2⟩ := exists_run isDigit cs
            obtain ⟨ps, hp⟩ := sub e
            rw [e]
            exact ⟨_, .number (by simpa [hd] using h1) h2 hp⟩
          | false =>
            obtain ⟨run, rest, e, h1, h2⟩ := exists_run (fun c => !isWhitespace c) cs
            obtain ⟨ps, hp⟩ := sub e
            rw [e]
            exact ⟨_, .error (by simp [isOther, hw, hk, hd]) (by simpa using h1) h2 hp⟩

theorem Lexed.total (cs : Text) : ∃ ps, Lexed cs ps := Lexed.exists_aux cs.length cs (Nat.le_refl _)

theorem Lexed.texts {cs : Text} {ps : List (Syn × Text)} (h : Lexed cs ps) :
    (ps.map (·.2)).flatten = cs := by
  induction h with
  | nil => rfl
  | symbol _ _ ih => simp [ih]
  | whitespace _ _ _ ih => simp [ih]
  | number _ _ _ ih => simp [ih]
  | error _ _ _ _ ih => simp [ih]

theorem Lexed.bytes {cs : Text} {ps : List (Syn × Text)} (h : Lexed cs ps) :
    Text.bytes cs = ((ps.map tokenOf).map (·.len)).sum := by
  induction h with
  | nil => rfl
  | symbol _ _ ih => simp [ih, tokenOf]
  | whitespace _ _ _ ih => simp [ih, tokenOf, bytes_append]; omega
  | number _ _ _ ih => simp [ih, tokenOf, bytes_append]; omega
  | error _ _ _ _ ih => simp [ih, tokenOf, bytes_append]; omega

theorem Lexed.length_le {cs : Text} {ps : List (Syn × Text)} (h : Lexed cs ps) :
    ps.length ≤ cs.length := by
  induction h with
  | nil => simp
  | symbol _ _ ih => simp; omega
  | whitespace _ _ _ ih => simp; omega
  | number _ _ _ ih => simp; omega
  | error _ _ _ _ ih => simp; omega

/-- No token is an end-of-file token, or one of the kinds of inner nodes. -/
theorem Lexed.kinds {cs : Text} {ps : List (Syn × Text)} (h : Lexed cs ps) :
    ∀ p ∈ ps, p.2 ≠ [] ∧ p.1 ≠ .eof ∧ p.1 ≠ .operation ∧ p.1 ≠ .group ∧ p.1 ≠ .operator := by
  induction h with
  | nil => simp
  | @symbol c k rest ps hk _ ih =>
    intro p hp
    rcases List.mem_cons.1 hp with rfl | hp
    · refine ⟨by simp, ?_⟩
      unfold Calc.symbol at hk
      split at hk <;> cases hk <;> decide
    · exact ih p hp
  | whitespace _ _ _ ih =>
    intro p hp
    rcases List.mem_cons.1 hp with rfl | hp
    · simp
    · exact ih p hp
  | number _ _ _ ih =>
    intro p hp
    rcases List.mem_cons.1 hp with rfl | hp
    · simp
    · exact ih p hp
  | error _ _ _ _ ih =>
    intro p hp
    rcases List.mem_cons.1 hp with rfl | hp
    · simp
    · exact ih p hp

/-- The lexer hands out the tokens of the pieces. -/
theorem Lexer.At.yields : ∀ (ps : List (Syn × Text)) {l : Lexer} {pre rest : Text},
    l.At pre rest → Lexed rest ps → Yields Lexer.iter l (ps.map tokenOf) := by
  intro ps
  induction ps with
  | nil =>
    intro l pre rest h hl
    cases hl
    exact .done (s' := l) (by unfold Lexer.iter; rw [h.done]; rfl)
  | cons p ps ih =>
    intro l pre rest h hl
    obtain ⟨l', rest', e, _, a, _, hr, _⟩ := h.next hl
    exact .item (s' := l') (by unfold Lexer.iter; rw [e]; rfl) (ih a hr)

end Syntree.Calc
