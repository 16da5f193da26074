import Verif.Model.CalcDepth
import Verif.Proof.CalcLex

/-! The recursion of the parser of the calculator is bounded by the parentheses that are left. -/

namespace Syntree.Calc

/-! ## Parentheses that are left -/

/-- The text behind the cursor. -/
def Lexer.rest (l : Lexer) : Text := (l.source.dropBytes l.cursor).getD []

/-- The opening parentheses behind the cursor. -/
def Lexer.opens (l : Lexer) : Nat := l.rest.count '('

/-- One for an opening parenthesis. -/
def bit (k : Syn) : Nat := if k = .openParen then 1 else 0

/-- The opening parentheses that have not been taken. -/
def Parser.opens (p : Parser) : Nat := p.lexer.opens + (p.buf.map fun t => bit t.syn).getD 0

theorem dropBytes_next (s : Text) : ∀ (n : Nat) {c : Char} {r : Text},
    s.dropBytes n = some (c :: r) → s.dropBytes (n + c.utf8Size) = some r := by
  induction s with
  | nil => intro n c r h; cases n <;> simp [Text.dropBytes] at h
  | cons x s ih =>
    intro n c r h
    have zero : ∀ t : Text, t.dropBytes 0 = some t := by intro t; cases t <;> rfl
    cases n with
    | zero =>
      simp only [zero, Option.some.injEq, List.cons.injEq] at h
      obtain ⟨rfl, rfl⟩ := h
      have := utf8_pos x
      obtain ⟨m, e⟩ : ∃ m, 0 + x.utf8Size = m + 1 := ⟨x.utf8Size - 1, by omega⟩
      rw [e, Text.dropBytes, if_pos (by omega)]
      rw [show m + 1 - x.utf8Size = 0 by omega, zero]
    | succ n =>
      rw [Text.dropBytes] at h
      split at h
      · rename_i hle
        have := ih _ h
        rw [show n + 1 + c.utf8Size = (n + c.utf8Size) + 1 by omega, Text.dropBytes,
          if_pos (by omega), ← this]
        congr 1
        omega
      · cases h

theorem Lexer.rest_peek (l : Lexer) : l.peek = l.rest.head? := by
  unfold Lexer.peek Lexer.rest
  cases l.source.dropBytes l.cursor <;> rfl

theorem Lexer.rest_step {l : Lexer} {c : Char} (h : l.peek = some c) :
    l.rest = c :: l.step.rest := by
  have hs : l.step = { l with cursor := l.cursor + c.utf8Size } := by
    unfold Lexer.step; rw [h]
  unfold Lexer.peek at h
  rw [hs]
  unfold Lexer.rest
  cases hd : l.source.dropBytes l.cursor with
  | none => rw [hd] at h; simp at h
  | some t =>
    rw [hd] at h
    cases t with
    | nil => simp at h
    | cons x t =>
      simp only [Option.bind_some, List.head?_cons, Option.some.injEq] at h
      subst h
      simp only [dropBytes_next _ _ hd, Option.getD_some]

theorem Lexer.step_opens {l : Lexer} {c : Char} (h : l.peek = some c) :
    l.step.opens + (if c = '(' then 1 else 0) = l.opens := by
  unfold Lexer.opens
  rw [rest_step h, List.count_cons]
  simp

theorem Lexer.consume_opens (cond : Char → Bool) : ∀ (fuel : Nat) (l : Lexer),
    (Lexer.consumeLoop cond fuel l).opens ≤ l.opens := by
  intro fuel
  induction fuel with
  | zero => intro l; exact Nat.le_refl _
  | succ fuel ih =>
    intro l
    unfold Lexer.consumeLoop
    cases h : l.peek with
    | none => exact Nat.le_refl _
    | some c =>
      simp only
      split
      · have := ih l.step
        have := step_opens h
        omega
      · exact Nat.le_refl _

theorem Lexer.scan_opens {l : Lexer} {c : Char} (h : l.peek = some c) :
    (l.scan c).1.opens + bit (l.scan c).2 ≤ l.opens := by
  have hs := step_opens h
  have hw : ∀ cond, (l.step.consumeWhile cond).opens ≤ l.step.opens := fun cond =>
    consume_opens cond _ _
  have h2 := hw isWhitespace
  have h3 := hw isDigit
  have h4 : (l.consumeWhile (fun c => !isWhitespace c)).opens ≤ l.opens := consume_opens _ _ _
  unfold Lexer.scan
  split
  · simp only [bit]; simp; omega
  · repeat' split
    all_goals (simp only [bit]; simp_all)
    all_goals omega

theorem Lexer.next_opens (l : Lexer) :
    l.next.1.opens + (l.next.2.map fun t => bit t.syn).getD 0 ≤ l.opens := by
  unfold Lexer.next
  cases h : l.peek with
  | none => simp
  | some c => simpa using scan_opens h

/-! ## Nothing adds parentheses -/

/-- A step of the parser never adds a parenthesis to what is left. -/
def Mono {β : Type} (x : P β) : Prop := ∀ p a p', x p = .ok (a, p') → p'.opens ≤ p.opens

theorem Mono.bind {β γ : Type} {x : P β} {f : β → P γ} (hx : Mono x) (hf : ∀ a, Mono (f a)) :
    Mono (x >>= f) := by
  intro p b p' h
  change P.bind x f p = _ at h
  unfold P.bind at h
  cases hp : x p with
  | error e => rw [hp] at h; simp at h
  | ok r =>
    obtain ⟨a, q⟩ := r
    rw [hp] at h
    exact Nat.le_trans (hf a q b p' h) (hx p a q hp)

theorem Mono.pure {β : Type} (a : β) : Mono (pure a : P β) := by
  intro p b p' h
  change Except.ok (a, p) = _ at h
  simp only [Except.ok.injEq, Prod.mk.injEq] at h
  rw [h.2]; exact Nat.le_refl _

theorem Mono.fail {β : Type} (e : Err) : Mono (fun _ => .error e : P β) := by
  intro p b p' h; cases h

theorem call_keeps {o : Op Syn} {p p' : Parser} {a : Out} (h : call o p = .ok (a, p')) :
    p'.lexer = p.lexer ∧ p'.buf = p.buf := by
  unfold call at h
  split at h
  · cases h
  · simp only [Except.ok.injEq, Prod.mk.injEq] at h
    rw [← h.2]; exact ⟨rfl, rfl⟩

theorem checkpoint_keeps {p p' : Parser} {a : Nat} (h : checkpoint p = .ok (a, p')) :
    p'.lexer = p.lexer ∧ p'.buf = p.buf := by
  unfold checkpoint at h
  split at h
  · cases h
  · rename_i hc
    simp only [Except.ok.injEq, Prod.mk.injEq] at h
    rw [← h.2]; exact call_keeps hc
  · rename_i hc
    simp only [Except.ok.injEq, Prod.mk.injEq] at h
    rw [← h.2]; exact call_keeps hc

theorem opens_congr {p q : Parser} (h : q.lexer = p.lexer ∧ q.buf = p.buf) : q.opens = p.opens := by
  unfold Parser.opens; rw [h.1, h.2]

theorem Mono.call (o : Op Syn) : Mono (call o) := fun _ _ _ h =>
  Nat.le_of_eq (opens_congr (call_keeps h))

theorem Mono.checkpoint : Mono checkpoint := fun _ _ _ h =>
  Nat.le_of_eq (opens_congr (checkpoint_keeps h))

theorem Mono.fillLoop : ∀ fuel : Nat, Mono (fillLoop fuel) := by
  intro fuel
  induction fuel with
  | zero => exact Mono.fail _
  | succ fuel ih =>
    intro p a p' h
    unfold Calc.fillLoop at h
    split at h
    · simp only [Except.ok.injEq, Prod.mk.injEq] at h; rw [h.2]; exact Nat.le_refl _
    · rename_i hb
      have hn := Lexer.next_opens p.lexer
      split at h
      · rename_i l hl
        simp only [Except.ok.injEq, Prod.mk.injEq] at h
        rw [← h.2]
        rw [hl] at hn
        simp only [Parser.opens, hb, Option.map_none, Option.getD_none] at hn ⊢
        omega
      · rename_i l tok hl
        rw [hl] at hn
        simp only [Option.map_some, Option.getD_some] at hn
        split at h
        · have := (Mono.call (.token tok.syn tok.len)).bind (fun _ => ih) _ _ _ h
          simp only [Parser.opens, hb, Option.map_none, Option.getD_none] at this ⊢
          omega
        · simp only [Except.ok.injEq, Prod.mk.injEq] at h
          rw [← h.2]
          simp only [Parser.opens, hb, Option.map_none, Option.getD_none, Option.map_some,
            Option.getD_some]
          omega

theorem Mono.fill : Mono fill := fun p a p' h => Mono.fillLoop _ p a p' h

theorem Mono.peek : Mono peek := Mono.fill.bind fun _ p a p' h => by
  simp only [Except.ok.injEq, Prod.mk.injEq] at h; rw [h.2]; exact Nat.le_refl _

theorem bind_inv {β γ : Type} {x : P β} {f : β → P γ} {p p' : Parser} {b : γ}
    (h : (x >>= f) p = .ok (b, p')) : ∃ a q, x p = .ok (a, q) ∧ f a q = .ok (b, p') := by
  change P.bind x f p = _ at h
  unfold P.bind at h
  cases hp : x p with
  | error e => rw [hp] at h; simp at h
  | ok r => obtain ⟨a, q⟩ := r; rw [hp] at h; exact ⟨a, q, rfl, h⟩

/-- What `peek` returns is in the buffer. -/
theorem peek_buf {p p' : Parser} {t : Token} (h : peek p = .ok (t, p')) :
    p'.buf.getD ⟨0, .eof⟩ = t := by
  obtain ⟨a, q, _, h2⟩ := bind_inv h
  simp only [Except.ok.injEq, Prod.mk.injEq] at h2
  rw [← h2.2]; exact h2.1

theorem step_opens {p p' : Parser} {t : Token} (h : step p = .ok (t, p')) :
    p'.opens + bit t.syn ≤ p.opens := by
  obtain ⟨a, q, h1, h2⟩ := bind_inv h
  simp only [Except.ok.injEq, Prod.mk.injEq] at h2
  have hm := Mono.peek _ _ _ h1
  have hb := peek_buf h1
  rw [← h2.2, ← h2.1]
  simp only [Parser.opens, Option.map_none, Option.getD_none] at hm ⊢
  cases hq : q.buf with
  | none => rw [hq] at hb hm; simp at hb hm; rw [← hb, show bit Syn.eof = 0 from rfl]; omega
  | some t' => rw [hq] at hb hm; simp at hb hm; rw [← hb]; omega

theorem Mono.step : Mono step := fun _ _ _ h => by have := step_opens h; omega

theorem Mono.ite {β : Type} {c : Prop} [Decidable c] {x y : P β} (hx : Mono x) (hy : Mono y) :
    Mono (if c then x else y) := by split <;> assumption

theorem Mono.eat (k : Syn) : Mono (eat k) := by
  unfold Calc.eat
  exact Mono.peek.bind fun t => Mono.ite (Mono.pure _)
    (Mono.step.bind fun _ => (Mono.call _).bind fun _ => Mono.pure _)

theorem Mono.token : Mono token := by
  unfold Calc.token
  exact Mono.step.bind fun _ => (Mono.call _).bind fun _ => Mono.pure _

theorem Mono.bump (k : Syn) : Mono (bump k) := by
  unfold Calc.bump
  exact Mono.step.bind fun _ => (Mono.call _).bind fun _ => (Mono.call _).bind fun _ =>
    (Mono.call _).bind fun _ => Mono.pure _

theorem Mono.advanceLoop (any : List Syn) : ∀ fuel : Nat, Mono (advanceLoop any fuel) := by
  intro fuel
  induction fuel with
  | zero => exact Mono.fail _
  | succ fuel ih =>
    unfold Calc.advanceLoop
    exact Mono.peek.bind fun t => Mono.ite (Mono.pure _)
      ((Mono.call _).bind fun _ => Mono.step.bind fun _ => ih)

theorem Mono.exprs (fuel : Nat) : (∀ min, Mono (expr fuel min)) ∧
    ∀ min o, Mono (exprLoop fuel min o) := by
  induction fuel with
  | zero =>
    refine ⟨fun min => ?_, fun min o => ?_⟩
    · unfold expr; exact Mono.fail _
    · unfold exprLoop; exact Mono.fail _
  | succ fuel ih =>
    refine ⟨fun min => ?_, fun min o => ?_⟩
    · unfold expr
      refine Mono.peek.bind fun t => Mono.checkpoint.bind fun c => Mono.bind ?_ fun go => ?_
      · split
        · exact Mono.token.bind fun _ => Mono.checkpoint.bind fun _ => (ih.1 0).bind fun _ =>
            (Mono.call _).bind fun _ => (Mono.eat _).bind fun _ =>
              Mono.ite ((Mono.bump _).bind fun _ => Mono.pure _) (Mono.pure _)
        · exact (Mono.bump _).bind fun _ => Mono.pure _
        · exact (Mono.bump _).bind fun _ => Mono.pure _
      · exact Mono.ite ((ih.2 min false).bind fun _ =>
          Mono.ite ((Mono.call _).bind fun _ => Mono.pure _) (Mono.pure _)) (Mono.pure _)
    · unfold exprLoop
      refine Mono.peek.bind fun t => ?_
      split
      · exact Mono.ite ((Mono.bump _).bind fun _ => (ih.1 _).bind fun _ => ih.2 _ _) (Mono.pure _)
      · exact Mono.pure _

/-! ## Enough frames -/

/-- The frames that operators alone can take: one for each level of precedence from `min` on, and
one for the operand. -/
def rank (min : Nat) : Nat := if min ≤ 1 then 4 else if min ≤ 3 then 3 else if min ≤ 7 then 2 else 1

theorem rank_pos (min : Nat) : 1 ≤ rank min := by unfold rank; (repeat' split) <;> omega

theorem rank_op {k : Syn} {left right min : Nat} (h : op k = some (left, right)) (hm : left ≥ min) :
    rank right + 1 ≤ rank min := by
  cases k <;> simp [op] at h <;> obtain ⟨rfl, rfl⟩ := h <;> unfold rank <;> simp <;>
    (repeat' split) <;> omega

theorem bind_congr {β γ : Type} {x y : P β} {f g : β → P γ} {p : Parser} (hx : x p = y p)
    (hf : ∀ a q, y p = .ok (a, q) → f a q = g a q) : (x >>= f) p = (y >>= g) p := by
  change P.bind x f p = P.bind y g p
  unfold P.bind
  rw [hx]
  cases hp : y p with
  | error e => rfl
  | ok r => obtain ⟨a, q⟩ := r; exact hf a q hp

/-- A parenthesis that was seen is taken. -/
theorem token_opens {p p' : Parser} {t : Token} {u : Unit} (hb : p.buf.getD ⟨0, .eof⟩ = t)
    (hk : t.syn = .openParen) (h : token p = .ok (u, p')) : p'.opens + 1 ≤ p.opens := by
  obtain ⟨t', r, hr, hr'⟩ := bind_inv h
  obtain ⟨_, r', hr1, hr2⟩ := bind_inv hr'
  have := step_opens hr
  have m := Mono.call _ _ _ _ hr1
  have hp : r' = p' := by
    change Except.ok ((), r') = _ at hr2
    simp only [Except.ok.injEq, Prod.mk.injEq] at hr2; exact hr2.2
  have ht : t' = t := by
    obtain ⟨t2, r2, h1, h2⟩ := bind_inv hr
    simp only [Except.ok.injEq, Prod.mk.injEq] at h2
    obtain ⟨_, r3, h3, h4⟩ := bind_inv h1
    simp only [Except.ok.injEq, Prod.mk.injEq] at h4
    have hbuf : p.buf = some t := by
      cases hq : p.buf with
      | none => rw [hq] at hb; simp at hb; rw [← hb] at hk; cases hk
      | some t3 => rw [hq] at hb; simp at hb; rw [hb]
    unfold fill fillLoop at h3
    rw [hbuf] at h3
    simp only [Except.ok.injEq, Prod.mk.injEq] at h3
    rw [← h2.1, ← h4.1, ← h3.2, hbuf]; rfl
  rw [ht, hk] at this
  simp only [bit, if_true] at this
  rw [← hp]
  omega

/-- With a frame for each level of precedence and four for each parenthesis that is left, `expr`
does what it does without a limit. -/
theorem expr_enough (fuel : Nat) :
    (∀ (d min : Nat) (p : Parser), 4 * p.opens + rank min ≤ d →
      exprIn fuel d min p = expr fuel min p) ∧
    (∀ (d min : Nat) (o : Bool) (p : Parser), 4 * p.opens + rank min ≤ d + 1 →
      exprLoopIn fuel d min o p = exprLoop fuel min o p) := by
  induction fuel with
  | zero =>
    refine ⟨fun d min p _ => ?_, fun d min o p _ => ?_⟩
    · unfold exprIn expr; rfl
    · unfold exprLoopIn exprLoop; rfl
  | succ fuel ih =>
    refine ⟨fun d min p hd => ?_, fun d min o p hd => ?_⟩
    · have hr := rank_pos min
      obtain ⟨d, rfl⟩ : ∃ e, d = e + 1 := ⟨d - 1, by omega⟩
      rw [exprIn, expr]
      refine bind_congr rfl fun t q hq => bind_congr rfl fun c q1 hq1 => ?_
      have m1 := Mono.peek _ _ _ hq
      have m2 := Mono.checkpoint _ _ _ hq1
      have hb : q1.buf.getD ⟨0, .eof⟩ = t := by
        rw [(checkpoint_keeps hq1).2]; exact peek_buf hq
      have inner : ∀ q3 : Parser, q3.opens + 1 ≤ q1.opens →
          exprIn fuel d 0 q3 = expr fuel 0 q3 := fun q3 h => ih.1 d 0 q3 (by
        have : rank 0 = 4 := rfl
        omega)
      have loop : ∀ q2 : Parser, q2.opens ≤ q1.opens →
          exprLoopIn fuel d min false q2 = exprLoop fuel min false q2 := fun q2 h =>
        ih.2 d min false q2 (by omega)
      cases hk : t.syn
      case openParen =>
        refine bind_congr ?_ fun go q2 hq2 => ?_
        · refine bind_congr rfl fun _ q2 hq2 => bind_congr rfl fun _ q3 hq3 => ?_
          have m4 := Mono.checkpoint _ _ _ hq3
          have m3 := token_opens hb hk hq2
          exact bind_congr (inner q3 (by omega)) fun _ _ _ => rfl
        · have : q2.opens ≤ q1.opens := by
            refine (Mono.token.bind fun _ => Mono.checkpoint.bind fun _ =>
              ((Mono.exprs fuel).1 0).bind fun _ =>
              (Mono.call _).bind fun _ => (Mono.eat _).bind fun _ => ?_) _ _ _ hq2
            exact Mono.ite ((Mono.bump _).bind fun _ => Mono.pure _) (Mono.pure _)
          cases go with
          | false => rfl
          | true => exact bind_congr (loop q2 this) fun _ _ _ => rfl
      all_goals
        refine bind_congr rfl fun go q2 hq2 => ?_
        have : q2.opens ≤ q1.opens := by
          refine ((Mono.bump _).bind fun _ => ?_) _ _ _ hq2
          exact Mono.pure _
        cases go with
        | false => rfl
        | true => exact bind_congr (loop q2 this) fun _ _ _ => rfl
    · rw [exprLoopIn, exprLoop]
      refine bind_congr rfl fun t q hq => ?_
      have m1 := Mono.peek _ _ _ hq
      cases hop : op t.syn with
      | none => rfl
      | some lr =>
        obtain ⟨left, right⟩ := lr
        dsimp only
        by_cases hm : left ≥ min
        · rw [if_pos hm, if_pos hm]
          have hr := rank_op hop hm
          refine bind_congr rfl fun _ q1 hq1 => ?_
          have m2 := Mono.bump _ _ _ _ hq1
          refine bind_congr (ih.1 d right q1 (by omega)) fun _ q2 hq2 => ?_
          have m3 := (Mono.exprs fuel).1 right _ _ _ hq2
          exact ih.2 d min true q2 (by omega)
        · rw [if_neg hm, if_neg hm]

theorem Mono.exprTop : Mono exprTop := fun p a p' h => (Mono.exprs _).1 0 p a p' h

theorem Mono.isEof : Mono isEof := by
  unfold Calc.isEof
  exact Mono.peek.bind fun _ => Mono.pure _

theorem Mono.advanceUntil (any : List Syn) : Mono (advanceUntil any) := fun p a p' h =>
  Mono.advanceLoop any _ p a p' h

theorem root_enough {d : Nat} : ∀ (fuel : Nat) (p : Parser), 4 * p.opens + 4 ≤ d →
    rootLoopIn d fuel p = rootLoop fuel p := by
  intro fuel
  induction fuel with
  | zero => intro p _; rfl
  | succ fuel ih =>
    intro p hd
    rw [rootLoopIn, rootLoop]
    refine bind_congr ((expr_enough _).1 d 0 p hd) fun _ q hq => ?_
    have m1 := Mono.exprTop _ _ _ hq
    refine bind_congr rfl fun e q1 hq1 => ?_
    have m2 := Mono.isEof _ _ _ hq1
    cases e with
    | true => rfl
    | false =>
      refine bind_congr rfl fun c q2 hq2 => bind_congr rfl fun _ q3 hq3 =>
        bind_congr rfl fun _ q4 hq4 => ?_
      have m3 := Mono.checkpoint _ _ _ hq2
      have m4 := Mono.advanceUntil _ _ _ _ hq3
      have m5 := Mono.call _ _ _ _ hq4
      exact ih q4 (by omega)

theorem opens_new (source : Text) : (Parser.new source).opens = source.count '(' := by
  have : Text.dropBytes 0 source = some source := by cases source <;> rfl
  simp [Parser.opens, Parser.new, Lexer.opens, Lexer.rest, Lexer.new, this]

theorem parse_enough {d : Nat} {source : Text} (h : 4 * (source.count '(' + 1) ≤ d) :
    parseIn d source = parse source := by
  unfold parseIn parse root
  rw [root_enough _ _ (by rw [opens_new]; omega)]
  rfl

end Syntree.Calc
