import Verif.Proof.Large
import Verif.Proof.MathExpr
import Verif.Proof.Chars

/-!
# The math example (C56–C58)

A parser that uses one checkpoint for all operators of a level.
-/

namespace Syntree.Math

open Forest

/-! ## C56 -/

/-- C56: for every text the lexer ends, and its tokens are the pieces in which the text is cut
(`Lexed`: symbols, maximal runs of whitespace, a digit and all digits and dots behind it, anything
else up to the next whitespace). The pieces spell the text, and no token is empty. -/
theorem C56_lexer (source : Text) : ∃ ps, Lexed source ps ∧
    Yields Lexer.iter (Lexer.new source) (ps.map tokenOf) ∧
    (ps.map (·.2)).flatten = source ∧ ∀ p ∈ ps, p.2 ≠ [] ∧ (tokenOf p).2 ≠ 0 := by
  obtain ⟨ps, h⟩ := Lexed.total source
  exact ⟨ps, h, Lexer.At.yields ps (Lexer.At.new source) h, h.texts,
    fun p hp => ⟨h.ne_nil p hp, bytes_ne (h.ne_nil p hp)⟩⟩

theorem lexed_demo : Lexed "1.5 *é2".toList [(.number, ['1', '.', '5']), (.whitespace, [' ']),
    (.mul, ['*']), (.error, ['é', '2'])] :=
  .number (run := ['.', '5']) (by decide) (by simp; decide) (by simp [Calc.Stops]; decide)
    (.whitespace (run := []) (by simp; decide) (by simp [Calc.Stops]; decide)
      (.symbol rfl (.error (run := ['2']) (by decide) (by decide) (by decide) (by simp; decide)
        (by simp [Calc.Stops]) .nil)))

example : Yields Lexer.iter (Lexer.new "1.5 *é2".toList)
    [(.number, 3), (.whitespace, 1), (.mul, 1), (.error, 3)] :=
  Lexer.At.yields _ (Lexer.At.new _) lexed_demo

/-- C56: there is only one way to cut a text. -/
theorem C56_unique {source : Text} {ps qs : List (Syn × Text)} (h : Lexed source ps)
    (h' : Lexed source qs) : ps = qs := by
  induction h generalizing qs with
  | nil => cases h'; rfl
  | @symbol c k rest ps hk hr ih =>
    generalize hs : c :: rest = s at h'
    cases h' with
    | nil => simp at hs
    | @symbol c' k' rest' qs hk' hr' =>
      simp only [List.cons.injEq] at hs
      obtain ⟨rfl, rfl⟩ := hs
      rw [hk] at hk'
      rw [ih hr', Option.some.inj hk']
    | @whitespace c' run rest' qs hw' _ _ =>
      simp only [List.cons_append, List.cons.injEq] at hs
      obtain ⟨rfl, _⟩ := hs
      have := hw' c (by simp)
      rw [(symbol_facts hk).1] at this; simp at this
    | @number c' run rest' qs hd' _ _ _ =>
      simp only [List.cons_append, List.cons.injEq] at hs
      obtain ⟨rfl, _⟩ := hs
      rw [digit_symbol hd'] at hk; simp at hk
    | @error c' run rest' qs _ hk' _ _ _ _ =>
      simp only [List.cons_append, List.cons.injEq] at hs
      obtain ⟨rfl, _⟩ := hs
      rw [hk'] at hk; simp at hk
  | @whitespace c run rest ps hw hst hr ih =>
    generalize hs : c :: run ++ rest = s at h'
    have hc := hw c (by simp)
    cases h' with
    | nil => simp at hs
    | @symbol c' k' rest' qs hk' hr' =>
      simp only [List.cons_append, List.cons.injEq] at hs
      obtain ⟨rfl, _⟩ := hs
      rw [(symbol_facts hk').1] at hc; simp at hc
    | @whitespace c' run' rest' qs hw' hst' hr' =>
      simp only [List.cons_append, List.cons.injEq] at hs
      obtain ⟨rfl, hs⟩ := hs
      obtain ⟨rfl, rfl⟩ := run_unique hs (fun x hx => hw x (by simp [hx])) hst
        (fun x hx => hw' x (by simp [hx])) hst'
      rw [ih hr']
    | @number c' run' rest' qs hd' _ _ _ =>
      simp only [List.cons_append, List.cons.injEq] at hs
      obtain ⟨rfl, _⟩ := hs
      rw [(Calc.digit_facts hd').1] at hc; simp at hc
    | @error c' run' rest' qs hw' _ _ _ _ _ =>
      simp only [List.cons_append, List.cons.injEq] at hs
      obtain ⟨rfl, _⟩ := hs
      rw [hw'] at hc; simp at hc
  | @number c run rest ps hd hw hst hr ih =>
    generalize hs : c :: run ++ rest = s at h'
    cases h' with
    | nil => simp at hs
    | @symbol c' k' rest' qs hk' hr' =>
      simp only [List.cons_append, List.cons.injEq] at hs
      obtain ⟨rfl, _⟩ := hs
      rw [digit_symbol hd] at hk'; simp at hk'
    | @whitespace c' run' rest' qs hw' hst' hr' =>
      simp only [List.cons_append, List.cons.injEq] at hs
      obtain ⟨rfl, _⟩ := hs
      have := hw' c (by simp)
      rw [(Calc.digit_facts hd).1] at this; simp at this
    | @number c' run' rest' qs hd' hw' hst' hr' =>
      simp only [List.cons_append, List.cons.injEq] at hs
      obtain ⟨rfl, hs⟩ := hs
      obtain ⟨rfl, rfl⟩ := run_unique hs hw hst hw' hst'
      rw [ih hr']
    | @error c' run' rest' qs _ _ hd' _ _ _ =>
      simp only [List.cons_append, List.cons.injEq] at hs
      obtain ⟨rfl, _⟩ := hs
      rw [hd'] at hd; simp at hd
  | @error c run rest ps hc hk hd hw hst hr ih =>
    generalize hs : c :: run ++ rest = s at h'
    cases h' with
    | nil => simp at hs
    | @symbol c' k' rest' qs hk' hr' =>
      simp only [List.cons_append, List.cons.injEq] at hs
      obtain ⟨rfl, _⟩ := hs
      rw [hk'] at hk; simp at hk
    | @whitespace c' run' rest' qs hw' hst' hr' =>
      simp only [List.cons_append, List.cons.injEq] at hs
      obtain ⟨rfl, _⟩ := hs
      have := hw' c (by simp)
      rw [hc] at this; simp at this
    | @number c' run' rest' qs hd' hw' hst' hr' =>
      simp only [List.cons_append, List.cons.injEq] at hs
      obtain ⟨rfl, _⟩ := hs
      rw [hd] at hd'; simp at hd'
    | @error c' run' rest' qs _ _ _ hw' hst' hr' =>
      simp only [List.cons_append, List.cons.injEq] at hs
      obtain ⟨rfl, hs⟩ := hs
      obtain ⟨rfl, rfl⟩ := run_unique (p := fun x => !isWhitespace x) hs
        (fun x hx => by simp [hw x hx]) hst (fun x hx => by simp [hw' x hx]) hst'
      rw [ih hr']

example : ¬ Lexed "1.".toList [(.number, ['1']), (.error, ['.'])] := fun h =>
  absurd (C56_unique h (.number (c := '1') (run := ['.']) (rest := []) (by decide) (by simp; decide)
    (by simp [Calc.Stops]) .nil)) (by decide)

/-! ## C57 -/

/-- C57: parsing a text of less than 2^32 bytes ends and never fails. The result is a tree made by a
builder with one root; it is made of the tokens `used` at the front of the text, exactly the ones
the grammar reads (`Sum`), and its nodes are the ones the grammar gives. On every level the nodes
follow each other without gaps and fill their parent, and the non-empty tokens of the tree are the
tokens `used` with their spans. The tokens `rest` the grammar does not read are left out. -/
theorem C57_parse {source : Text} {ps : List (Syn × Text)} (hp : Lexed source ps)
    (hb : Text.bytes source < 2 ^ 32) :
    ∃ t ops F used rest G, parse source = .ok t ∧ Built Flavor.default ops t F ∧
      ps = used ++ rest ∧ Sum (ps.map (·.1)) G (rest.map (·.1)) ∧
      F.content.map (·.1) = single .root G ∧
      t.span = ⟨0, Text.bytes (used.map (·.2)).flatten⟩ ∧ Calc.Tiles F.content 0 t.span.stop ∧
      Calc.solid F.content = lay 0 used := by
  obtain ⟨t, ops, F, used, rest, G, h1, ⟨_, h2⟩, h3, h4, h5, h6, h7, h8, h9, _⟩ := parse_ok hp hb
  refine ⟨t, ops, F, used, rest, shape G, h1, h2, h3, h8, by rw [h5]; rfl,
    by rw [h4, lens_texts], ?_, ?_⟩
  · rw [h5, h4]
    exact ⟨_, rfl, h6.le, fun _ => h6, rfl⟩
  · rw [h5, ← h7]
    unfold Calc.solid
    rw [Calc.leaves_single h9]

/-- C57, for every text: the grammar reads the tokens `used` at its front. If these have less than
2^32 bytes, parsing succeeds, and the result is as in `C57_parse`, no matter how much text there is
behind them. Otherwise parsing ends with `Overflow`. -/
theorem C57_any {source : Text} {ps : List (Syn × Text)} (hp : Lexed source ps) :
    ∃ used rest G, ps = used ++ rest ∧ Sum (ps.map (·.1)) G (rest.map (·.1)) ∧
      (2 ^ 32 ≤ Text.bytes (used.map (·.2)).flatten → parse source = .error .overflow) ∧
      (Text.bytes (used.map (·.2)).flatten < 2 ^ 32 → ∃ t ops F, parse source = .ok t ∧
        Built Flavor.default ops t F ∧ F.content.map (·.1) = single .root G ∧
        t.span = ⟨0, Text.bytes (used.map (·.2)).flatten⟩ ∧ Calc.Tiles F.content 0 t.span.stop ∧
        Calc.solid F.content = lay 0 used) := by
  obtain ⟨used, rest, G, h1, h2, h3, h4⟩ := parse_any hp
  refine ⟨used, rest, shape G, h1, h2, by rw [lens_texts]; exact h3, ?_⟩
  rw [lens_texts]
  intro hlt
  obtain ⟨t, ops, F, g1, _, g2, g3, g4, g5, g6, g7⟩ := h4 hlt
  refine ⟨t, ops, F, g1, g2, by rw [g4]; rfl, g3, ?_, ?_⟩
  · rw [g4, g3]
    exact ⟨_, rfl, g5.le, fun _ => g5, rfl⟩
  · rw [g4, ← g6]
    unfold Calc.solid
    rw [Calc.leaves_single g7]

/-- C57: the grammar reads a list of tokens in one way only. -/
theorem C57_unique {i : List Syn} {F F' : Forest Syn} {r r' : List Syn} (h : Sum i F r)
    (h' : Sum i F' r') : F = F' ∧ r = r' := sum_det i F r F' r' h h'

/-- A number, and then something that is no operator: only the number, and the whitespace behind it,
get into the tree. -/
example : ∃ t ops F, parse "1 2".toList = .ok t ∧ Built Flavor.default ops t F ∧
    t.span = ⟨0, 2⟩ ∧
    F.content.map (·.1) = single .root (leaf .number ++ leaf .whitespace) := by
  have hl : Lexed "1 2".toList [(.number, ['1']), (.whitespace, [' ']), (.number, ['2'])] :=
    .number (run := []) (by decide) (by simp) (by simp [Calc.Stops]; decide)
      (.whitespace (run := []) (by simp; decide) (by simp [Calc.Stops]; decide)
        (.number (run := []) (by decide) (by simp) (by simp [Calc.Stops]) .nil))
  have hs : Sum [.number, .whitespace, .number] (leaf .number ++ leaf .whitespace) [.number] :=
    .mk (n := 0) (F := leaf .number ++ leaf .whitespace)
      (.one (.mk (n := 1) (F := leaf .number)
        (.one (.number 0 _)) (noHead_cons (by simp)))) (noHead_cons (by simp))
  obtain ⟨t, ops, F, used, rest, G, h1, h2, h3, h4, h5, h6, _⟩ := C57_parse hl (by decide)
  obtain ⟨rfl, hr⟩ := C57_unique h4 hs
  refine ⟨t, ops, F, h1, h2, ?_, h5⟩
  have hlen : rest.length = 1 := by simpa using congrArg List.length hr
  have hu : used = [(.number, ['1']), (.whitespace, [' '])] := by
    match rest, hlen with
    | [q], _ =>
      have e := congrArg List.dropLast h3
      rw [List.dropLast_concat] at e
      exact e.symm
  rw [h6, hu]; decide

theorem bytes_replicate (n : Nat) : Text.bytes (List.replicate n '1') = n := by
  induction n with
  | zero => rfl
  | succ n ih =>
    rw [List.replicate_succ, Text.bytes, ih]
    have : '1'.utf8Size = 1 := by decide
    omega

/-- Two numbers, the second one with any number of digits: it is not read, and does not matter. One
number with 2^32 digits is too much. -/
example (n : Nat) (hn : 2 ^ 32 ≤ n) :
    (∃ t, parse ('1' :: ' ' :: List.replicate n '1') = .ok t ∧ t.span = ⟨0, 2⟩) ∧
      parse (List.replicate n '1') = .error .overflow := by
  obtain ⟨m, rfl⟩ : ∃ m, n = m + 1 := ⟨n - 1, by omega⟩
  have hlong : Lexed (List.replicate (m + 1) '1') [(.number, List.replicate (m + 1) '1')] := by
    have := Lexed.number (c := '1') (run := List.replicate m '1') (rest := []) (ps := []) (by decide)
      (fun x hx => by rw [(List.mem_replicate.1 hx).2]; decide) (by simp [Calc.Stops]) .nil
    simpa [List.replicate_succ] using this
  constructor
  · have hl : Lexed ('1' :: ' ' :: List.replicate (m + 1) '1')
        [(.number, ['1']), (.whitespace, [' ']), (.number, List.replicate (m + 1) '1')] :=
      .number (run := []) (by decide) (by simp) (by simp [Calc.Stops]; decide)
        (.whitespace (run := []) (by simp; decide)
          (by simp [Calc.Stops]; decide) hlong)
    have hs : Sum [.number, .whitespace, .number] (leaf .number ++ leaf .whitespace) [.number] :=
      .mk (n := 0) (F := leaf .number ++ leaf .whitespace)
        (.one (.mk (n := 1) (F := leaf .number)
          (.one (.number 0 _)) (noHead_cons (by simp)))) (noHead_cons (by simp))
    obtain ⟨used, rest, G, h1, h2, _, h4⟩ := C57_any hl
    obtain ⟨rfl, hr⟩ := C57_unique h2 hs
    have hlen : rest.length = 1 := by simpa using congrArg List.length hr
    have hu : used = [(.number, ['1']), (.whitespace, [' '])] := by
      match rest, hlen with
      | [q], _ =>
        have e := congrArg List.dropLast h1
        rw [List.dropLast_concat] at e
        exact e.symm
    subst hu
    obtain ⟨t, _, _, g1, _, _, g4, _⟩ := h4 (by decide)
    exact ⟨t, g1, by rw [g4]; decide⟩
  · have hs : Sum [.number] (leaf .number) [] :=
      .mk (n := 0) (F := leaf .number) (.one (.mk (n := 0) (F := leaf .number)
        (.one (.number 0 _)) (by simp [NoHead]))) (by simp [NoHead])
    obtain ⟨used, rest, G, h1, h2, h3, _⟩ := C57_any hlong
    obtain ⟨rfl, hr⟩ := C57_unique h2 hs
    have hr' : rest = [] := by simpa using hr
    subst hr'
    rw [List.append_nil] at h1
    subst h1
    exact h3 (by simpa [bytes_replicate] using hn)

/-! ## C58 -/

/-- C58: for every expression, spelled with any whitespace, the whole text gets into the tree, and up
to whitespace the tree is the syntax tree of the expression: operators bind by level and to the
left. -/
theorem C58_expression {ws : Text} {e : Expr} (hw : ∀ c ∈ ws, isWhitespace c) (he : e.WF)
    (hb : Text.bytes (ws ++ e.text) < 2 ^ 32) :
    ∃ t ops F ps, parse (ws ++ e.text) = .ok t ∧ Built Flavor.default ops t F ∧
      t.span = ⟨0, Text.bytes (ws ++ e.text)⟩ ∧ Lexed (ws ++ e.text) ps ∧
      Calc.solid F.content = lay 0 ps ∧ strip (F.content.map (·.1)) = single .root e.tree := by
  have hl : Lexed (ws ++ e.text) (blank ws ++ e.pieces) := by
    have h1 := lexed_expr he (x := []) (qs := []) ⟨by simp [Calc.Stops], by simp [Calc.Stops]⟩ .nil
    rw [List.append_nil, List.append_nil] at h1
    have h2 := text_starts he []
    rw [List.append_nil] at h2
    exact lexed_blank hw h2 h1
  obtain ⟨k, hk⟩ := kinds_blank ws
  obtain ⟨G0, g1, g2⟩ := sum_expr e he k [] (by simp [NoHead])
  have hs : Sum (kinds (blank ws ++ e.pieces)) G0 [] := by
    have := Whole.mk (n := 0) (r := []) g2 (by simp [NoHead])
    rw [kinds_append, hk]
    simpa [blankNodes] using this
  obtain ⟨t, ops, F, used, rest, G, h1, h2, h3, h4, h5, h6, _, h8⟩ := C57_parse hl hb
  obtain ⟨rfl, hr⟩ := C57_unique h4 hs
  have hr' : rest = [] := by simpa using hr
  subst hr'
  rw [List.append_nil] at h3
  subst h3
  refine ⟨t, ops, F, _, h1, h2, by rw [h6, hl.texts], hl, h8, ?_⟩
  rw [h5]
  simp [strip, g1]

/-- `1 + 2*3 - 4`. -/
def demo : Expr :=
  .bin (.bin (.num ['1'] [' ']) '+' [' '] (.bin (.num ['2'] []) '*' [] (.num ['3'] [' ']))) '-' [' ']
    (.num ['4'] [])

example : ∃ t ops F ps, parse " 1 + 2*3 - 4".toList = .ok t ∧ Built Flavor.default ops t F ∧
      t.span = ⟨0, 12⟩ ∧ Lexed " 1 + 2*3 - 4".toList ps ∧
      Calc.solid F.content = lay 0 ps ∧ strip (F.content.map (·.1)) =
        single .root (single .operation (single .operation (leaf .number ++ leaf .add ++
          single .operation (leaf .number ++ leaf .mul ++ leaf .number)) ++ leaf .sub ++
            leaf .number)) :=
  C58_expression (ws := [' ']) (e := demo) (by decide)
    (by
      simp only [demo, Expr.WF, Expr.level]
      refine ⟨⟨⟨⟨_, _, rfl, ?_⟩, ?_⟩, ⟨⟨⟨_, _, rfl, ?_⟩, ?_⟩, ⟨⟨_, _, rfl, ?_⟩, ?_⟩, ?_⟩, ?_⟩,
        ⟨⟨_, _, rfl, ?_⟩, ?_⟩, ?_⟩ <;> simp <;> decide)
    (by decide)

/-- C56: whitespace, digits and what may follow in a number, spelled out. -/
theorem C56_classes (c : Char) : (isWhitespace c = true ↔ c ∈ whiteChars) ∧
    (isDigit c = true ↔ c ∈ digitChars) ∧ (isNumeric c = true ↔ c = '.' ∨ c ∈ digitChars) := by
  refine ⟨isWhitespace_iff c, isDigit_iff c, ?_⟩
  unfold isNumeric
  rw [Bool.or_eq_true, isDigit_iff, or_comm]
  simp

example : isNumeric '.' = true ∧ isDigit '.' = false :=
  ⟨(C56_classes '.').2.2.2 (.inl rfl), by decide⟩

end Syntree.Math
