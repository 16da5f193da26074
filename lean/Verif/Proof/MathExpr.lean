import Verif.Proof.MathRun
import Verif.Proof.CalcLex

/-! The grammar of the math example is deterministic, and reads expressions. -/

namespace Syntree.Math

open Forest
open Calc (Stops digit_facts)

/-- The parser at work on a source, with a new builder of the given flavor. -/
def Parser.newIn (fl : Flavor) (source : Text) : Parser := ⟨Sys.init, ⟨Lexer.new source, none⟩, fl⟩

/-- The tree that is built, in a flavor that is large enough. -/
theorem root_in {ib pw : Nat} {source : Text} {ps : List (Syn × Text)} (hl : Lexed source ps)
    (hb : Text.bytes source < 2 ^ ib) (hw : 16 * Text.bytes source + 100 < 2 ^ pw) :
    ∃ p t ops F used rest G,
      parseRoot (Parser.newIn (Flavor.sized ib pw) source) = .ok ((), p) ∧
      p.builder.b.build = .ok t ∧
      (Clean (Flavor.sized ib pw) ops ∧ Built (Flavor.sized ib pw) ops t F) ∧ ps = used ++ rest ∧ t.span = ⟨0, lens used⟩ ∧
      F.content = single (.root, ⟨0, lens used⟩) G ∧ Calc.Tiles G 0 (lens used) ∧
      Calc.solid G = lay 0 used ∧ Sum (kinds ps) (shape G) (kinds rest) ∧ G ≠ .nil ∧
      G.size ≤ 3 * used.length + 1 := by
  have hlen := hl.length_le
  have hby : Text.bytes source = lens ps := by rw [← lens_texts, hl.texts]
  have hlb := length_le_bytes source
  obtain ⟨s1, n1, e1, c1, m1⟩ := (Cli.init (α := Syn) (ib := ib) (pw := pw)).open .root
    (by simp only [Forest.size]; omega)
  have r1 : RP ib pw ⟨s1, ⟨Lexer.new source, none⟩, Flavor.sized ib pw⟩ n1 ⟨.nil, 0⟩ ps
      [⟨Nest.init.count (α := Syn), .root, 0, Nest.init.cur⟩] 1 :=
    ⟨by simpa [Forest.size] using c1, ⟨0, source, ps, Lexer.At.new source, hl, Or.inl ⟨rfl, rfl⟩⟩,
      rfl, by simp only; omega, hl.ne_nil⟩
  obtain ⟨p2, n2, L2, used, rest, G, e2, r2, hps, x2, hS, _, hG, hsz⟩ := add_ok _ _ _ _ _ _ r1 (by
    simp only [Space, Forest.size]; omega)
  obtain ⟨s3, n3, e3, c3, m3⟩ := r2.sim.close (by simp [Nest.init, Forest.size])
  have hst : n3.stack = [] := by
    have := c3.stack
    cases hs : n3.stack with
    | nil => rfl
    | cons y ys => rw [hs] at this; exact this.elim
  obtain ⟨ops, t, hcl, hbd, hbt, hsp⟩ := c3.logged.built hst
  have hpos : L2.pos = lens used := by rw [x2.pos]; simp
  have hcur : L2.cur = G := by rw [x2.cur]; rfl
  refine ⟨⟨s3, p2.iter, p2.fl⟩, t, ops, n3.cur, used, rest, G, ?_, hbd, ⟨hcl, hbt⟩, hps, ?_, ?_, ?_,
    x2.solid, hS, hG, hsz⟩
  · unfold parseRoot Parser.newIn
    rw [bind_ok (call_ok rfl e1), bind_ok e2, bind_ok (call_ok r2.flavor e3)]; rfl
  · rw [hsp, c3.stop]; simp only [hpos]
  · rw [c3.cur, hpos, hcur]; rfl
  · have := x2.tiles; rw [hpos] at this; exact this

/-- The tree that is built. -/
theorem parse_ok {source : Text} {ps : List (Syn × Text)} (hl : Lexed source ps)
    (hb : Text.bytes source < 2 ^ 32) : ∃ t ops F used rest G, parse source = .ok t ∧
      (Clean Flavor.default ops ∧ Built Flavor.default ops t F) ∧ ps = used ++ rest ∧ t.span = ⟨0, lens used⟩ ∧
      F.content = single (.root, ⟨0, lens used⟩) G ∧ Calc.Tiles G 0 (lens used) ∧
      Calc.solid G = lay 0 used ∧ Sum (kinds ps) (shape G) (kinds rest) ∧ G ≠ .nil ∧
      G.size ≤ 3 * used.length + 1 := by
  obtain ⟨p, t, ops, F, used, rest, G, h1, h2, h3⟩ :=
    root_in (ib := 32) (pw := 64) hl hb (by omega)
  refine ⟨t, ops, F, used, rest, G, ?_, h3⟩
  unfold parse
  unfold Parser.newIn at h1
  rw [Flavor.default_eq, h1]
  exact h2

/-! ## Determinism -/

theorem blanks_inj {n n' : Nat} {x x' : List Syn} (h : blanks n ++ x = blanks n' ++ x')
    (hx : NoHead [.whitespace] x) (hx' : NoHead [.whitespace] x') : n = n' ∧ x = x' := by
  induction n generalizing n' with
  | zero => cases n' with
    | zero => exact ⟨rfl, by simpa using h⟩
    | succ n' =>
      simp only [blanks, List.replicate_zero, List.nil_append, List.replicate_succ,
        List.cons_append] at h
      exact absurd (hx .whitespace (by rw [h]; rfl)) (by simp)
  | succ n ih => cases n' with
    | zero =>
      simp only [blanks, List.replicate_zero, List.nil_append, List.replicate_succ,
        List.cons_append] at h
      exact absurd (hx' .whitespace (by rw [← h]; rfl)) (by simp)
    | succ n' =>
      simp only [blanks, List.replicate_succ, List.cons_append, List.cons.injEq, true_and] at h
      obtain ⟨rfl, rfl⟩ := ih h
      exact ⟨rfl, rfl⟩

/-- A rule that reads its input in one way only. -/
def Det (R : List Syn → Forest Syn → List Syn → Prop) : Prop :=
  ∀ i F r F' r', R i F r → R i F' r' → F = F' ∧ r = r'

theorem noHead_cons {ks : List Syn} {k : Syn} {i : List Syn} (h : k ∉ ks) : NoHead ks (k :: i) := by
  intro x hx
  simp only [List.head?_cons, Option.some.injEq] at hx
  subst hx; exact h

theorem val_det : Det Val := by
  intro i F r F' r' h h'
  have n1 : NoHead [.whitespace] [] := by simp [NoHead]
  have key : ∀ (n : Nat) (r : List Syn), ∀ F' r', i = blanks n ++ .number :: r → Val i F' r' →
      F' = blankNodes n ++ leaf .number ∧ r' = r := by
    intro n r F' r' e h'
    cases h' with
    | number n' r' =>
      obtain ⟨rfl, e2⟩ := blanks_inj e.symm (noHead_cons (by simp)) (noHead_cons (by simp))
      exact ⟨rfl, (List.cons.inj e2).2.symm⟩
    | error n' r' hk hw =>
      obtain ⟨rfl, e2⟩ := blanks_inj e.symm (noHead_cons (by simp)) (noHead_cons (by simpa using hw))
      exact absurd (List.cons.inj e2).1.symm hk
    | missing n' =>
      obtain ⟨rfl, e⟩ := blanks_inj ((List.append_nil _).trans e) n1 (noHead_cons (by simp))
      simp at e
  cases h with
  | number n r =>
    obtain ⟨e1, e2⟩ := key n _ F' r' rfl h'
    exact ⟨e1.symm, e2.symm⟩
  | error n r hk hw =>
    generalize hi : blanks n ++ _ :: r = i at h' key
    cases h' with
    | number n' r' => exact (key n' _ _ _ rfl (by rw [← hi]; exact .error n r hk hw))
    | error n' r' hk' hw' =>
      obtain ⟨rfl, e⟩ := blanks_inj hi (noHead_cons (by simpa using hw)) (noHead_cons (by simpa using hw'))
      simp only [List.cons.injEq] at e
      obtain ⟨rfl, rfl⟩ := e
      exact ⟨rfl, rfl⟩
    | missing n' =>
      obtain ⟨rfl, e⟩ := blanks_inj (hi.trans (List.append_nil _).symm)
        (noHead_cons (by simpa using hw)) n1
      simp at e
  | missing n =>
    generalize hi : blanks n = i at h' key
    cases h' with
    | number n' r' => exact (key n' _ _ _ rfl (by rw [← hi]; exact .missing n))
    | error n' r' hk' hw' =>
      obtain ⟨rfl, e⟩ := blanks_inj ((List.append_nil _).trans hi) n1 (noHead_cons (by simpa using hw'))
      simp at e
    | missing n' =>
      obtain ⟨rfl, _⟩ := blanks_inj (x := []) (x' := []) (by simpa using hi) n1 n1
      exact ⟨rfl, rfl⟩

/-- The rest of a chain. -/
inductive Rest (ops : List Syn) (R : List Syn → Forest Syn → List Syn → Prop) :
    Forest Syn → List Syn → Forest Syn → List Syn → Prop where
  | stop {F n r} : NoHead (.whitespace :: ops) r →
      Rest ops R F (blanks n ++ r) (F ++ blankNodes n) r
  | step {F n o m G s F' r'} : o ∈ ops → R m G s →
      Rest ops R (single .operation (F ++ blankNodes n ++ leaf o ++ G)) s F' r' →
      Rest ops R F (blanks n ++ o :: m) F' r'

variable {ops : List Syn} {R : List Syn → Forest Syn → List Syn → Prop}

theorem Chain.rest {i : List Syn} {F F' : Forest Syn} {s r : List Syn} (h : Chain ops R i F s)
    (hr : Rest ops R F s F' r) : ∃ F0 s0, R i F0 s0 ∧ Rest ops R F0 s0 F' r := by
  induction h with
  | one h => exact ⟨_, _, h, hr⟩
  | op h ho hR ih => exact ih (.step ho hR hr)

theorem Whole.rest {i : List Syn} {F : Forest Syn} {r : List Syn} (h : Whole ops R i F r) :
    ∃ F0 s0, R i F0 s0 ∧ Rest ops R F0 s0 F r := by
  cases h with
  | mk hc hn => exact hc.rest (.stop hn)

theorem NoHead.mono {ks ks' i : List Syn} (h : NoHead ks i) (hs : ∀ k ∈ ks', k ∈ ks) :
    NoHead ks' i := fun k hk hm => h k hk (hs k hm)

theorem Rest.det (hR : Det R) (hw : .whitespace ∉ ops) {F : Forest Syn} {s : List Syn}
    {F1 F2 : Forest Syn} {r1 r2 : List Syn} (h1 : Rest ops R F s F1 r1) (h2 : Rest ops R F s F2 r2) :
    F1 = F2 ∧ r1 = r2 := by
  have op_ne : ∀ {o : Syn}, o ∈ ops → o ∉ [Syn.whitespace] := by
    intro o ho; simp only [List.mem_singleton]; rintro rfl; exact hw ho
  induction h1 with
  | @stop F n r hn =>
    generalize hs : blanks n ++ r = s at h2
    cases h2 with
    | @stop _ n' r' hn' =>
      obtain ⟨rfl, rfl⟩ := blanks_inj hs (hn.mono (by simp)) (hn'.mono (by simp))
      exact ⟨rfl, rfl⟩
    | @step _ n' o m G s F' r' ho _ _ =>
      obtain ⟨rfl, rfl⟩ := blanks_inj hs (hn.mono (by simp)) (noHead_cons (op_ne ho))
      exact absurd ho (fun h => hn o rfl (by simp [h]))
  | @step F n o m G s F' r' ho hm hr ih =>
    generalize hs : blanks n ++ o :: m = s' at h2
    cases h2 with
    | @stop _ n' r' hn' =>
      obtain ⟨rfl, rfl⟩ := blanks_inj hs (noHead_cons (op_ne ho)) (hn'.mono (by simp))
      exact absurd ho (fun h => hn' o rfl (by simp [h]))
    | @step _ n' o' m' G' s' F' r' ho' hm' hr' =>
      obtain ⟨rfl, e⟩ := blanks_inj hs (noHead_cons (op_ne ho)) (noHead_cons (op_ne ho'))
      simp only [List.cons.injEq] at e
      obtain ⟨rfl, rfl⟩ := e
      obtain ⟨rfl, rfl⟩ := hR _ _ _ _ _ hm hm'
      exact ih hr'

theorem whole_det (hR : Det R) (hw : .whitespace ∉ ops) : Det (Whole ops R) := by
  intro i F r F' r' h h'
  obtain ⟨F0, s0, a, b⟩ := h.rest
  obtain ⟨F1, s1, a', b'⟩ := h'.rest
  obtain ⟨rfl, rfl⟩ := hR _ _ _ _ _ a a'
  exact b.det hR hw b'

theorem sum_det : Det Sum := whole_det (whole_det val_det (by simp)) (by simp)

/-! ## Expressions -/

/-- The piece for some whitespace. -/
def blank (ws : Text) : List (Syn × Text) := if ws = [] then [] else [(.whitespace, ws)]

/-- The pieces of an expression. -/
def Expr.pieces : Expr → List (Syn × Text)
  | .num ds ws => (.number, ds) :: blank ws
  | .bin l o ws r => l.pieces ++ ((symbol o).getD .error, [o]) :: blank ws ++ r.pieces

theorem kinds_blank (ws : Text) : ∃ n, kinds (blank ws) = blanks n := by
  unfold blank
  split
  · exact ⟨0, rfl⟩
  · exact ⟨1, rfl⟩

theorem strip_append (F G : Forest Syn) : strip (F ++ G) = strip F ++ strip G := by
  induction F with
  | nil => rfl
  | cons x k r _ ih =>
    simp only [cons_append, strip]
    split
    · exact ih
    · rw [ih]; rfl

theorem strip_blankNodes (n : Nat) : strip (blankNodes n) = .nil := by
  induction n with
  | zero => rfl
  | succ n ih => simp [blankNodes, strip, ih]

theorem level_le {e : Expr} (h : 3 ≤ e.level) : ∃ ds ws, e = .num ds ws := by
  cases e with
  | num ds ws => exact ⟨ds, ws, rfl⟩
  | bin l o ws r =>
    simp only [Expr.level, opLevel] at h
    split at h <;> omega

theorem val_num (k : Nat) (ds ws : Text) (r : List Syn) : ∃ F j, strip F = leaf .number ∧
    Val (blanks k ++ (kinds (Expr.num ds ws).pieces ++ r)) F (blanks j ++ r) := by
  obtain ⟨j, hj⟩ := kinds_blank ws
  refine ⟨blankNodes k ++ leaf .number, j, by simp [strip_append, strip_blankNodes, strip], ?_⟩
  simp only [Expr.pieces, List.map_cons, List.cons_append]
  rw [show (blank ws).map (·.1) = _ from hj]
  exact .number _ _

theorem op_mul {o : Char} (h : o ∈ ['+', '-', '*', '/']) (hl : 2 ≤ opLevel o) :
    ∃ k, symbol o = some k ∧ k ∈ [Syn.mul, Syn.div] := by
  simp only [List.mem_cons, List.not_mem_nil, or_false] at h
  rcases h with rfl | rfl | rfl | rfl
  · exact absurd hl (by decide)
  · exact absurd hl (by decide)
  · exact ⟨.mul, rfl, by simp⟩
  · exact ⟨.div, rfl, by simp⟩

theorem op_add {o : Char} (h : o ∈ ['+', '-', '*', '/']) (hl : ¬ 2 ≤ opLevel o) :
    ∃ k, symbol o = some k ∧ k ∈ [Syn.add, Syn.sub] := by
  simp only [List.mem_cons, List.not_mem_nil, or_false] at h
  rcases h with rfl | rfl | rfl | rfl
  · exact ⟨.add, rfl, by simp⟩
  · exact ⟨.sub, rfl, by simp⟩
  · exact absurd (by decide) hl
  · exact absurd (by decide) hl

theorem product_expr (e : Expr) (he : e.WF) (hl : 2 ≤ e.level) (k : Nat) (r : List Syn) :
    ∃ F j, strip F = e.tree ∧
      Chain [.mul, .div] Val (blanks k ++ (kinds e.pieces ++ r)) F (blanks j ++ r) := by
  induction e generalizing k r with
  | num ds ws =>
    obtain ⟨F, j, h1, h2⟩ := val_num k ds ws r
    exact ⟨F, j, h1, .one h2⟩
  | bin l o ws r' ihl _ =>
    obtain ⟨wl, wr, _, ho, ll, lr⟩ := he
    simp only [Expr.level] at hl
    obtain ⟨ok, hok, hmem⟩ := op_mul ho hl
    obtain ⟨ds, ws', rfl⟩ := level_le (e := r') (by omega)
    obtain ⟨b, hb⟩ := kinds_blank ws
    obtain ⟨F, j, h1, h2⟩ := ihl wl (by omega) k
      (ok :: (blanks b ++ (kinds (Expr.num ds ws').pieces ++ r)))
    obtain ⟨G, j', g1, g2⟩ := val_num b ds ws' r
    refine ⟨_, j', ?_, (?_ : Chain [.mul, .div] Val _
      (single .operation (F ++ blankNodes j ++ leaf ok ++ G)) _)⟩
    · have : ok ≠ .whitespace := by rintro rfl; simp at hmem
      simp [strip, strip_append, strip_blankNodes, h1, g1, Expr.tree, hok, this]
    · have e : blanks k ++ (kinds (Expr.bin l o ws (.num ds ws')).pieces ++ r) =
          blanks k ++ (kinds l.pieces ++ (ok :: (blanks b ++
            (kinds (Expr.num ds ws').pieces ++ r)))) := by
        simp only [Expr.pieces, hok, Option.getD_some, kinds, List.map_append, List.map_cons,
          List.append_assoc, List.cons_append]
        rw [show (blank ws).map (·.1) = _ from hb]
      rw [e]
      exact .op h2 hmem g2

theorem sum_expr (e : Expr) (he : e.WF) (k : Nat) (r : List Syn)
    (hr : NoHead [.whitespace, .mul, .div] r) : ∃ F, strip F = e.tree ∧
      Chain [.add, .sub] Product (blanks k ++ (kinds e.pieces ++ r)) F r := by
  have prod : ∀ (e : Expr) (k : Nat) (r : List Syn), NoHead [.whitespace, .mul, .div] r → e.WF →
      2 ≤ e.level → ∃ F, strip F = e.tree ∧
      Product (blanks k ++ (kinds e.pieces ++ r)) F r := by
    intro e k r hr he hl
    obtain ⟨F, j, h1, h2⟩ := product_expr e he hl k r
    exact ⟨F ++ blankNodes j, by simp [strip_append, strip_blankNodes, h1], .mk h2 hr⟩
  induction e generalizing k r with
  | num ds ws =>
    obtain ⟨F, h1, h2⟩ := prod _ k r hr he (by simp [Expr.level])
    exact ⟨F, h1, .one h2⟩
  | bin l o ws r' ihl _ =>
    by_cases hl : 2 ≤ opLevel o
    · obtain ⟨F, h1, h2⟩ := prod _ k r hr he hl
      exact ⟨F, h1, .one h2⟩
    · obtain ⟨wl, wr, _, ho, ll, lr⟩ := he
      obtain ⟨ok, hok, hmem⟩ := op_add ho hl
      have h1l : 1 ≤ opLevel o := by unfold opLevel; split <;> omega
      obtain ⟨b, hb⟩ := kinds_blank ws
      have hne : ok ∉ [Syn.whitespace, .mul, .div] := by
        simp only [List.mem_cons, List.not_mem_nil, or_false] at hmem
        rcases hmem with rfl | rfl <;> simp
      obtain ⟨F, h1, h2⟩ := ihl wl k (ok :: (blanks b ++ (kinds r'.pieces ++ r))) (noHead_cons hne)
      obtain ⟨G, g1, g2⟩ := prod r' b r hr wr (by omega)
      refine ⟨_, ?_, (?_ : Chain [.add, .sub] Product _
        (single .operation (F ++ blankNodes 0 ++ leaf ok ++ G)) _)⟩
      · have : ok ≠ .whitespace := by rintro rfl; simp at hne
        simp [strip, strip_append, blankNodes, h1, g1, Expr.tree, hok, this]
      · have e : blanks k ++ (kinds (Expr.bin l o ws r').pieces ++ r) =
            blanks k ++ (kinds l.pieces ++ (ok :: (blanks b ++ (kinds r'.pieces ++ r)))) := by
          simp only [Expr.pieces, hok, Option.getD_some, kinds, List.map_append, List.map_cons,
            List.append_assoc, List.cons_append]
          rw [show (blank ws).map (·.1) = _ from hb]
        rw [e]
        exact .op (n := 0) h2 hmem g2

/-! ## The tokens of an expression -/

theorem numeric_facts {c : Char} (h : isNumeric c = true) : isWhitespace c = false := by
  simp only [isNumeric, Bool.or_eq_true, beq_iff_eq] at h
  rcases h with h | rfl
  · exact (digit_facts h).1
  · decide

theorem white_numeric {c : Char} (h : isWhitespace c = true) : isNumeric c = false := by
  cases hn : isNumeric c with
  | false => rfl
  | true => rw [numeric_facts hn] at h; simp at h

theorem lexed_blank {ws x : Text} {qs : List (Syn × Text)} (hw : ∀ c ∈ ws, isWhitespace c)
    (hs : Stops isWhitespace x) (h : Lexed x qs) : Lexed (ws ++ x) (blank ws ++ qs) := by
  cases ws with
  | nil => exact h
  | cons c ws => exact .whitespace hw hs h

/-- The text may follow a number or a blank. -/
def Follows (x : Text) : Prop := Stops isWhitespace x ∧ Stops isNumeric x

theorem follows_op {o : Char} (h : o ∈ ['+', '-', '*', '/']) (x : Text) : Follows (o :: x) := by
  simp only [List.mem_cons, List.not_mem_nil, or_false] at h
  constructor <;> intro c hc <;> simp only [List.head?_cons, Option.some.injEq] at hc <;> subst hc <;>
    rcases h with rfl | rfl | rfl | rfl <;> decide

theorem text_starts {e : Expr} (he : e.WF) (x : Text) : Stops isWhitespace (e.text ++ x) := by
  induction e generalizing x with
  | num ds ws =>
    obtain ⟨⟨c, run, rfl, hd, _⟩, _⟩ := he
    intro y hy
    simp only [Expr.text, List.cons_append, List.head?_cons, Option.some.injEq] at hy
    subst hy
    exact (digit_facts hd).1
  | bin l o ws r ihl _ =>
    have := ihl he.1 (o :: ws ++ r.text ++ x)
    simpa [Expr.text, List.append_assoc] using this

theorem lexed_expr {e : Expr} (he : e.WF) {x : Text} {qs : List (Syn × Text)} (hx : Follows x)
    (h : Lexed x qs) : Lexed (e.text ++ x) (e.pieces ++ qs) := by
  induction e generalizing x qs with
  | num ds ws =>
    obtain ⟨⟨c, run, rfl, hd, hr⟩, hw⟩ := he
    have hb := lexed_blank hw hx.1 h
    have hs : Stops isNumeric (ws ++ x) := by
      cases ws with
      | nil => exact hx.2
      | cons d ws =>
        intro y hy
        simp only [List.cons_append, List.head?_cons, Option.some.injEq] at hy
        subst hy
        exact white_numeric (hw d (by simp))
    have := Lexed.number hd hr hs hb
    simpa [Expr.text, Expr.pieces, List.append_assoc] using this
  | bin l o ws r ihl ihr =>
    obtain ⟨wl, wr, hw, ho, _, _⟩ := he
    have h1 := ihr wr hx h
    have h2 := lexed_blank hw (text_starts wr x) h1
    have hk : ∃ k, symbol o = some k := by
      simp only [List.mem_cons, List.not_mem_nil, or_false] at ho
      rcases ho with rfl | rfl | rfl | rfl <;> exact ⟨_, rfl⟩
    obtain ⟨k, hk⟩ := hk
    have h3 := Lexed.symbol hk h2
    have := ihl wl (follows_op ho _) h3
    simpa [Expr.text, Expr.pieces, hk, List.append_assoc] using this

end Syntree.Math
