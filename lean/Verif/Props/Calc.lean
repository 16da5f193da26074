import Verif.Proof.Large
import Verif.Proof.CalcExpr
import Verif.Proof.Chars

/-!
# The calculator example (C52–C55)

A complete client of the library: a lexer, a parser that drives the builder with checkpoints, and an
evaluator that reads the tree.
-/

namespace Syntree.Calc

open Forest

/-! ## C52 -/

/-- C52: for every text the lexer ends, and its tokens are the pieces in which the text is cut
(`Lexed`: symbols, maximal runs of whitespace, maximal runs of digits, anything else up to the next
whitespace). The pieces spell the text, and no token is empty. -/
theorem C52_lexer (source : Text) : ∃ ps, Lexed source ps ∧
    Yields Lexer.iter (Lexer.new source) (ps.map tokenOf) ∧
    (ps.map (·.2)).flatten = source ∧ ∀ p ∈ ps, p.2 ≠ [] ∧ (tokenOf p).len ≠ 0 := by
  obtain ⟨ps, h⟩ := Lexed.total source
  refine ⟨ps, h, Lexer.At.yields ps (Lexer.At.new source) h, h.texts, fun p hp => ?_⟩
  have := (h.kinds p hp).1
  exact ⟨this, by
    cases hq : p.2 with
    | nil => exact absurd hq this
    | cons c cs =>
      have := utf8_pos c
      simp only [tokenOf, hq, Text.bytes]
      omega⟩

example : Yields Lexer.iter (Lexer.new "12 *(x".toList)
    [⟨2, .number⟩, ⟨1, .whitespace⟩, ⟨1, .mul⟩, ⟨1, .openParen⟩, ⟨1, .error⟩] := by
  refine Lexer.At.yields [(.number, ['1', '2']), (.whitespace, [' ']), (.mul, ['*']),
    (.openParen, ['(']), (.error, ['x'])] (Lexer.At.new _) ?_
  exact .number (run := ['2']) (by simp; decide) (by simp [Stops]; decide)
    (.whitespace (run := []) (by simp; decide) (by simp [Stops]; decide)
      (.symbol rfl (.symbol rfl (.error (run := []) (by decide) (by simp) (by simp [Stops]) .nil))))

theorem bytes_prefix {a b x y : Text} (h : a ++ x = b ++ y) (hb : Text.bytes a = Text.bytes b) :
    a = b ∧ x = y := by
  have nil : ∀ {c d : Text}, Text.bytes (c ++ d) = Text.bytes c → d = [] := by
    intro c d e
    rw [bytes_append] at e
    cases d with
    | nil => rfl
    | cons z d => have := utf8_pos z; simp only [Text.bytes] at e; omega
  rcases List.append_eq_append_iff.1 h with ⟨c, rfl, rfl⟩ | ⟨c, rfl, rfl⟩
  · have := nil hb.symm; subst this; simp
  · have := nil hb; subst this; simp

/-- C52: there is only one way to cut a text. -/
theorem C52_unique {source : Text} {ps qs : List (Syn × Text)} (h : Lexed source ps)
    (h' : Lexed source qs) : ps = qs := by
  have e := (Lexer.At.yields ps (Lexer.At.new source) h).det
    (Lexer.At.yields qs (Lexer.At.new source) h')
  have t : (ps.map (·.2)).flatten = (qs.map (·.2)).flatten := h.texts.trans h'.texts.symm
  clear h h'
  induction ps generalizing qs with
  | nil => cases qs with
    | nil => rfl
    | cons q qs => simp at e
  | cons p ps ih =>
    cases qs with
    | nil => simp at e
    | cons q qs =>
      simp only [List.map_cons, List.cons.injEq, tokenOf, Token.mk.injEq, List.flatten_cons] at e t
      obtain ⟨t1, t2⟩ := bytes_prefix t e.1.1
      rw [ih (by simpa [tokenOf] using e.2) t2, Prod.ext e.1.2 t1]

example : ¬ Lexed "12".toList [(.number, ['1']), (.number, ['2'])] := fun h =>
  absurd (C52_unique h (.number (c := '1') (run := ['2']) (rest := []) (by simp; decide)
    (by simp [Stops]) .nil)) (by decide)

/-! ## C53 -/

theorem parse_full {source : Text} {ps : List (Syn × Text)} (hp : Lexed source ps)
    (hb : Text.bytes source < 2 ^ 32) : ∃ t ops F, parse source = .ok t ∧
      Built Flavor.default ops t F ∧ t.span = ⟨0, Text.bytes source⟩ ∧
      Tiles F.content 0 (Text.bytes source) ∧
      solid F.content = lay 0 (ps.map tokenOf) ∧
      ∃ s', proot (2 * source.length + 4) (source.length + 1) ⟨⟨.nil, 0⟩, ps.map tokenOf⟩ =
        some s' ∧ F.content = s'.lev.cur := by
  obtain ⟨qs, hq, s', t, ops, F, h0, h1, ⟨_, h2⟩, h3, h4, G, h5, h6⟩ := parse_ok source hb
  obtain rfl := C52_unique hq hp
  have hc : F.content = G := by rw [h3, h5.cur]; rfl
  have hs : solid G = lay 0 (qs.map tokenOf) := h5.solid (by
    intro t ht
    obtain ⟨p, hp', rfl⟩ := List.mem_map.1 ht
    have := (hp.kinds p hp').1
    cases hq : p.2 with
    | nil => exact absurd hq this
    | cons c cs => have := utf8_pos c; simp only [tokenOf, hq, Text.bytes]; omega)
  refine ⟨t, ops, F, h1, h2, h4, ?_, by rw [hc, hs], s', h0, h3⟩
  have := h5.tiles
  rw [hc]
  rw [h5.pos] at this
  have e : Text.bytes source = 0 + lens (qs.map tokenOf) := by rw [hp.bytes]; simp [lens]
  rw [e]; exact this

/-- C53: parsing a text of less than 2^32 bytes ends and never fails. The result is a tree made by
a builder that spans the whole text; on every level the nodes follow each other without gaps and
overlaps, and fill their parent; and the tokens of the tree that are not empty are, in document
order, exactly the tokens of the text, each with its span, so that they spell the text. -/
theorem C53_parse {source : Text} {ps : List (Syn × Text)} (hp : Lexed source ps)
    (hb : Text.bytes source < 2 ^ 32) : ∃ t ops F, parse source = .ok t ∧
      Built Flavor.default ops t F ∧ t.span = ⟨0, Text.bytes source⟩ ∧
      Tiles F.content 0 (Text.bytes source) ∧
      solid F.content = lay 0 (ps.map tokenOf) ∧
      (solid F.content).map (fun x => source.get (x.2.range Flavor.default.ik)) =
        ps.map (fun p => some p.2) := by
  obtain ⟨t, ops, F, h1, h2, h3, h4, h5, _⟩ := parse_full hp hb
  refine ⟨t, ops, F, h1, h2, h3, h4, h5, ?_⟩
  · rw [h5]
    have key : ∀ (ps : List (Syn × Text)) (pos : Nat), Reads source pos ps →
        (lay pos (ps.map tokenOf)).map (fun x => source.get (x.2.range Flavor.default.ik)) =
          ps.map (fun p => some p.2) := by
      intro ps
      induction ps with
      | nil => intro _ _; rfl
      | cons p ps ih =>
        intro pos hr
        obtain ⟨r1, r2⟩ := hr.cons
        simp only [List.map_cons, lay, List.cons.injEq]
        exact ⟨r2, ih _ r1⟩
    exact key ps 0 ⟨[], by simp [hp.texts], rfl⟩

/-- The tree of a text with a mistake in it. -/
example : ∃ t ops F, parse "1 +)".toList = .ok t ∧ Built Flavor.default ops t F ∧
    solid F.content = [(.number, ⟨0, 1⟩), (.whitespace, ⟨1, 2⟩), (.plus, ⟨2, 3⟩),
      (.closeParen, ⟨3, 4⟩)] := by
  obtain ⟨t, ops, F, h1, h2, _, _, h5, _⟩ := C53_parse (source := "1 +)".toList)
    (ps := [(.number, ['1']), (.whitespace, [' ']), (.plus, ['+']), (.closeParen, [')'])])
    (.number (run := []) (by simp; decide) (by simp [Stops]; decide)
      (.whitespace (run := []) (by simp; decide) (by simp [Stops]; decide)
        (.symbol rfl (.symbol rfl .nil)))) (by decide)
  exact ⟨t, ops, F, h1, h2, h5⟩

/-- C53: a text of `2^32` bytes or more does not fit into the index of the default flavor, whatever is
in it: parsing ends with `Overflow`. (Together with `C53_parse`, this is every text.) -/
theorem C53_too_long {source : Text} (hb : 2 ^ 32 ≤ Text.bytes source) :
    parse source = .error .overflow := parse_large hb

theorem bytes_replicate (n : Nat) : Text.bytes (List.replicate n '1') = n := by
  induction n with
  | zero => rfl
  | succ n ih =>
    rw [List.replicate_succ, Text.bytes, ih]
    have : '1'.utf8Size = 1 := by decide
    omega

/-- A number with `2^32` digits, and one with a digit less. -/
example : parse (List.replicate (2 ^ 32) '1') = .error .overflow ∧
    ∃ t, parse (List.replicate (2 ^ 32 - 1) '1') = .ok t ∧ t.span = ⟨0, 2 ^ 32 - 1⟩ := by
  refine ⟨C53_too_long (by rw [bytes_replicate]; exact Nat.le_refl _), ?_⟩
  obtain ⟨ps, hp⟩ := Lexed.total (List.replicate (2 ^ 32 - 1) '1')
  obtain ⟨t, ops, F, h1, _, h3, _⟩ := C53_parse hp (by rw [bytes_replicate]; omega)
  rw [bytes_replicate] at h3
  exact ⟨t, h1, h3⟩

/-! ## C55 -/

theorem eval_total {source : Text} {ps : List (Syn × Text)} {t : Tree Syn} {ops : List (Op Syn)}
    {F : Forest (Lab Syn)} (hp : Lexed source ps) (hbuilt : Built Flavor.default ops t F)
    (htiles : Tiles F.content 0 (Text.bytes source))
    (hsolid : solid F.content = lay 0 (ps.map tokenOf)) :
    ∃ rs : List (Except EvalError Int), eval t source = some (rs.map some) ∧
      rs.length = (branches F.content).length ∧
      ∀ p v, branches F.content = [p] → rs = [v] →
        evalF source (t.nodes.length + 1) p.1 p.2 = some v := by
  have hr := hbuilt.represents
  have hcut : Cut source F.content := (htiles.cut ⟨[], source, rfl, rfl⟩ (by
    rw [hsolid]
    exact lay_boundary ps (pre := []) rfl hp.texts.symm)).1
  have hsz : F.content.size ≤ t.nodes.length := by
    have : ∀ G : Forest (Lab Syn), G.content.size = G.size := by
      intro G
      induction G with
      | nil => rfl
      | cons x k r ihk ihr =>
        simp only [content] at ihk ihr
        simp only [content, Forest.map, Forest.size, ihk, ihr]
    rw [← hr.size, this]
    exact Nat.le_refl _
  have key : ∀ l : List ((Syn × Span) × Forest (Syn × Span)), (∀ p ∈ l, CutB source p ∧
      1 + p.2.size ≤ t.nodes.length + 1) → ∃ rs : List (Except EvalError Int),
      l.map (fun p => evalF source (t.nodes.length + 1) p.1 p.2) = rs.map some := by
    intro l
    induction l with
    | nil => intro _; exact ⟨[], rfl⟩
    | cons p l ih =>
      intro h
      obtain ⟨rs, e⟩ := ih (fun q hq => h q (by simp [hq]))
      have hp := h p (by simp)
      have := (evalF_total source (t.nodes.length + 1)).1 p.1 p.2 hp.1 hp.2
      cases hv : evalF source (t.nodes.length + 1) p.1 p.2 with
      | none => exact absurd hv this
      | some v => exact ⟨v :: rs, by simp [e, hv]⟩
  have hw := weight_branches F.content
  have hle : ∀ (l : List ((Syn × Span) × Forest (Syn × Span))), ∀ p ∈ l, 1 + p.2.size ≤ weight l := by
    intro l
    induction l with
    | nil => simp
    | cons q l ih =>
      intro p hp
      simp only [weight, List.map_cons, List.sum_cons] at ih ⊢
      rcases List.mem_cons.1 hp with rfl | hp
      · omega
      · have := ih p hp; omega
  obtain ⟨rs, e⟩ := key (branches F.content) (fun p hp => ⟨hcut.branches p hp, by
    have := hle _ p hp; omega⟩)
  refine ⟨rs, by rw [eval_eq hr, e], by simpa using (congrArg List.length e).symm, ?_⟩
  intro p v h1 h2
  rw [h1, h2] at e
  simpa using e

/-- C55: for every text of less than 2^32 bytes, whether it is an expression or not, the program
ends without a panic, and every result is a number or an error. -/
theorem C55_run_total (source : Text) (hb : Text.bytes source < 2 ^ 32) :
    ∃ rs : List (Except EvalError Int), run source = .ok (some (rs.map some)) := by
  obtain ⟨ps, hp⟩ := Lexed.total source
  obtain ⟨t, ops, F, h1, h2, _, h4, h5, _⟩ := C53_parse hp hb
  obtain ⟨rs, e, _⟩ := eval_total hp h2 h4 h5
  exact ⟨rs, by simp only [run, h1, e]⟩

example : ∃ rs : List (Except EvalError Int), run "1 2)(é *".toList = .ok (some (rs.map some)) :=
  C55_run_total _ (by decide)

/-- C55: with a text of `2^32` bytes or more the program reports `Overflow`. -/
theorem C55_too_long {source : Text} (hb : 2 ^ 32 ≤ Text.bytes source) :
    run source = .error .overflow := by simp only [run, parse_large hb]

example : run (List.replicate (2 ^ 32) '1') = .error .overflow :=
  C55_too_long (by rw [bytes_replicate]; exact Nat.le_refl _)

/-! ## C54 -/

/-- C54, what the program computes: an expression, spelled with any whitespace, has exactly one
result, and it is `computed`: operators are applied by precedence and from left to right, on 64 bit
numbers; except that a parenthesis that starts with whitespace or with a parenthesis enclosing all of
its content is not evaluated. -/
theorem C54_exact {ws : Text} {e : Expr} (hw : ∀ c ∈ ws, isWhitespace c) (he : e.WF)
    (hb : Text.bytes (ws ++ e.text) < 2 ^ 32) :
    ∃ r, run (ws ++ e.text) = .ok (some [some r]) ∧ kindOf r = e.computed := by
  have hl := lexed_source hw he
  obtain ⟨t, ops, F, h1, g2, _, g4, g5, s', h0, h3⟩ := parse_full hl hb
  unfold proot at h0
  cases hpe : pexpr (2 * (ws ++ e.text).length + 4) 0
      ⟨⟨.nil, 0⟩, (blank ws ++ e.pieces).map tokenOf⟩ with
  | none => rw [hpe] at h0; simp at h0
  | some s1 =>
    rw [hpe] at h0
    have hrd : Reads (ws ++ e.text) 0 (blank ws ++ (e.pieces ++ [])) :=
      ⟨[], by rw [List.append_nil, hl.texts]; rfl, rfl⟩
    obtain ⟨G, y, k, pos', rfl, _, hbr, hag, _⟩ := (pexpr_expr (ws ++ e.text) _).1 e 0 .nil 0 ws []
      s1 he (by simp) (by simp [Follow]) hrd (by rw [List.append_nil]; exact hpe)
    have hs' : s' = ⟨⟨.nil ++ (blankF 0 ws ++ G), pos'⟩, []⟩ := by
      have : (⟨⟨Forest.nil ++ (blankF 0 ws ++ G), pos'⟩, []⟩ : St).skip =
        ⟨⟨.nil ++ (blankF 0 ws ++ G), pos'⟩, []⟩ := rfl
      simp only [List.map_nil, this, if_true, Option.some.injEq] at h0
      exact h0.symm
    have hc : branches F.content = [(y, k)] := by
      rw [h3, hs']
      simp only [nil_append, branches_append, branches_blankF, List.nil_append, hbr]
    obtain ⟨rs, e1, e2, e3⟩ := eval_total hl g2 g4 g5
    rw [hc] at e2
    match rs, e2 with
    | [v], _ =>
      refine ⟨v, by simp only [run, h1, e1, List.map_cons, List.map_nil], ?_⟩
      exact hag _ _ (e3 (y, k) v hc rfl)

/-- `1 + 2 * (3 - 4)` with some blanks. -/
def demo : Expr :=
  .bin (.num ['1'] [' ']) .add [' '] (.bin (.num ['2'] []) .mul []
    (.paren [] (.bin (.num ['3'] [' ']) .sub [] (.num ['4'] [])) [' ']))

theorem demo_wf : demo.WF := by
  simp only [demo, Expr.WF, Expr.level, Bin.level]
  decide

theorem demo_value : demo.text = "1 + 2*(3 -4) ".toList ∧ demo.computed = .ok (-1) ∧
    demo.value = .ok (-1) := by
  refine ⟨by decide, ?_, ?_⟩
  · simp [demo, Expr.computed, Bin.apply, inI64, decimal]
  · simp [demo, Expr.value, Bin.apply, inI64, decimal]

example : ∃ r, run " 1 + 2*(3 -4) ".toList = .ok (some [some r]) ∧ kindOf r = .ok (-1) := by
  rw [← demo_value.2.1]
  exact C54_exact (ws := [' ']) (e := demo) (by decide) demo_wf (by decide)

theorem computed_eq_value {e : Expr} (h : e.Plain) : e.computed = e.value := by
  induction e with
  | num => rfl
  | paren ws e ws' ih =>
    obtain ⟨rfl, h2, h3⟩ := h
    cases e with
    | paren a b c => exact absurd rfl (h2 a b c)
    | num => exact ih h3
    | bin => exact ih h3
  | bin l o ws r ihl ihr => simp only [Expr.computed, Expr.value, ihl h.1, ihr h.2]

/-- C54, partial: the result is the value of the expression. Missing: expressions with a parenthesis
that starts with whitespace, or with a parenthesis enclosing all of its content (`C54_fails`). -/
theorem C54_value_partial {ws : Text} {e : Expr} (hw : ∀ c ∈ ws, isWhitespace c) (he : e.WF)
    (hp : e.Plain) (hb : Text.bytes (ws ++ e.text) < 2 ^ 32) :
    ∃ r, run (ws ++ e.text) = .ok (some [some r]) ∧ kindOf r = e.value := by
  rw [← computed_eq_value hp]
  exact C54_exact hw he hb

example : ∃ r, run " 1 + 2*(3 -4) ".toList = .ok (some [some r]) ∧ kindOf r = .ok (-1) := by
  rw [← demo_value.2.2]
  exact C54_value_partial (ws := [' ']) (e := demo) (by decide) demo_wf
    (by simp [demo, Expr.Plain]) (by decide)

/-- C54 does not hold for all expressions: `( 1)` and `((1))` have the value one, and the program
reports `expected Number, but was Whitespace` and `expected Number, but was OpenParen`. -/
theorem C54_fails :
    (∃ e : Expr, e.WF ∧ e.text = "( 1)".toList ∧ e.value = .ok 1 ∧ ∃ r,
      run e.text = .ok (some [some r]) ∧ kindOf r = .error (.expected .number .whitespace)) ∧
    (∃ e : Expr, e.WF ∧ e.text = "((1))".toList ∧ e.value = .ok 1 ∧ ∃ r,
      run e.text = .ok (some [some r]) ∧ kindOf r = .error (.expected .number .openParen)) := by
  refine ⟨⟨.paren [' '] (.num ['1'] []) [], by simp [Expr.WF]; decide, rfl,
      by simp [Expr.value, inI64, decimal], ?_⟩,
    ⟨.paren [] (.paren [] (.num ['1'] []) []) [], by simp [Expr.WF]; decide, rfl,
      by simp [Expr.value, inI64, decimal], ?_⟩⟩
  · obtain ⟨r, h1, h2⟩ := C54_exact (ws := []) (e := .paren [' '] (.num ['1'] []) []) (by simp)
      (by simp [Expr.WF]; decide) (by decide)
    rw [List.nil_append] at h1
    exact ⟨r, h1, h2⟩
  · obtain ⟨r, h1, h2⟩ := C54_exact (ws := []) (e := .paren [] (.paren [] (.num ['1'] []) []) [])
      (by simp) (by simp [Expr.WF]; decide) (by decide)
    rw [List.nil_append] at h1
    exact ⟨r, h1, h2⟩

/-- `2^3^2`. -/
def tower : Expr := .bin (.bin (.num ['2'] []) .pow [] (.num ['3'] [])) .pow [] (.num ['2'] [])

/-- `(0-9223372036854775807-1)/(0-1)`. -/
def minByMinusOne : Expr :=
  .bin (.paren [] (.bin (.bin (.num ['0'] []) .sub [] (.num "9223372036854775807".toList [])) .sub []
    (.num ['1'] [])) []) .div [] (.paren [] (.bin (.num ['0'] []) .sub [] (.num ['1'] [])) [])

/-- C54, two results a user may not expect: powers associate to the left, and the one division that
overflows is reported as a division by zero. -/
theorem C54_power_and_division :
    (∃ r, run "2^3^2".toList = .ok (some [some r]) ∧ kindOf r = .ok 64) ∧
    ∃ r, run "(0-9223372036854775807-1)/(0-1)".toList = .ok (some [some r]) ∧
      kindOf r = .error .divideByZero := by
  refine ⟨?_, ?_⟩
  · obtain ⟨r, h1, h2⟩ := C54_value_partial (ws := []) (e := tower) (by simp)
      (by simp only [tower, Expr.WF, Expr.level, Bin.level]; decide) (by simp [tower, Expr.Plain])
      (by decide)
    refine ⟨r, h1, h2.trans ?_⟩
    simp [tower, Expr.value, Bin.apply, inI64, decimal]
  · obtain ⟨r, h1, h2⟩ := C54_value_partial (ws := []) (e := minByMinusOne) (by simp)
      (by simp only [minByMinusOne, Expr.WF, Expr.level, Bin.level]; decide)
      (by simp [minByMinusOne, Expr.Plain]) (by decide)
    refine ⟨r, h1, h2.trans ?_⟩
    simp [minByMinusOne, Expr.value, Bin.apply, inI64, decimal]

/-! ## The classes of characters, spelled out -/

/-- C52: what the lexer takes for whitespace are the characters of `whiteChars`, what it takes for
digits are `0` to `9`. -/
theorem C52_classes (c : Char) : (isWhitespace c = true ↔ c ∈ whiteChars) ∧
    (isDigit c = true ↔ c ∈ digitChars) :=
  ⟨isWhitespace_iff c, isDigit_iff c⟩

example : isDigit '7' = true ∧ isDigit '٣' = false ∧ isWhitespace '\u00a0' = true :=
  ⟨(C52_classes '7').2.2 (by decide), by decide, (C52_classes _).1.2 (by decide)⟩

/-- C54: the value of a number written in decimal notation is that number, if it fits in 64 bits. -/
theorem C54_numbers (n : Nat) (ws : Text) : (Expr.num (spell n) ws).value =
    if n < 2 ^ 63 then .ok (n : Int) else .error .badNumber := by
  have hi : inI64 (n : Int) = decide (n < 2 ^ 63) := by
    unfold inI64
    by_cases hn : n < 2 ^ 63
    · have a : (-(2 ^ 63) : Int) ≤ n := by omega
      have b : (n : Int) < 2 ^ 63 := by omega
      simp only [a, b, hn, decide_true, Bool.and_self]
    · have b : ¬ (n : Int) < 2 ^ 63 := by omega
      simp only [b, hn, decide_false, Bool.and_false]
  simp only [Expr.value, (spell_spec n).1, hi, decide_eq_true_eq]

example : spell 407 = "407".toList ∧ (Expr.num (spell 407) []).value = .ok 407 := by
  refine ⟨by simp [spell, digitChars], ?_⟩
  rw [C54_numbers]; rfl

end Syntree.Calc
