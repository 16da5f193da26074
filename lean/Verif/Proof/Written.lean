import Verif.Spec.Written

/-! # The rules of `tree!` against what is written -/

namespace Syntree

variable {ε : Type}

theorem Match.bind_yes {β γ : Type} (x : β) (f : β → Match γ) : (Match.yes x >>= f) = f x := rfl
theorem Match.bind_no {β γ : Type} (f : β → Match γ) : ((Match.no : Match β) >>= f) = .no := rfl
theorem Match.bind_fatal {β γ : Type} (f : β → Match γ) : ((Match.fatal : Match β) >>= f) = .fatal :=
  rfl
theorem Match.pure_eq {β : Type} (x : β) : (pure x : Match β) = .yes x := rfl

theorem Match.bind_eq_yes {β γ : Type} {m : Match β} {f : β → Match γ} {y : γ} :
    (m >>= f) = .yes y ↔ ∃ x, m = .yes x ∧ f x = .yes y := by
  cases m with
  | no => simp [Match.bind_no]
  | fatal => simp [Match.bind_fatal]
  | yes x => simp [Match.bind_yes]

theorem Match.bind_ne {β γ : Type} {m : Match β} {f : β → Match γ} (h : m ≠ .fatal)
    (hf : ∀ x, m = .yes x → f x ≠ .fatal) : (m >>= f) ≠ .fatal := by
  cases m with
  | no => simp [Match.bind_no]
  | fatal => exact absurd rfl h
  | yes x => exact hf x rfl

theorem Match.pure_ne {β : Type} (x : β) : (pure x : Match β) ≠ .fatal := by simp [Match.pure_eq]

namespace Tts

/-- Does not go on with a token that continues an expression. -/
def Stop : Tts ε → Prop
  | .more _ _ => False
  | _ => True

theorem takeMore_foldr (l : List ε) {k : Tts ε} (h : k.Stop) :
    (l.foldr .more k).takeMore = (l, k) := by
  induction l with
  | nil => cases k <;> first | rfl | exact h.elim
  | cons e l ih => simp [takeMore, ih]

theorem takeMore_spec (t : Tts ε) : t = t.takeMore.1.foldr .more t.takeMore.2 ∧ t.takeMore.2.Stop := by
  induction t with
  | more e r ih => simp only [takeMore, List.foldr_cons]; exact ⟨by rw [← ih.1], ih.2⟩
  | _ => exact ⟨rfl, trivial⟩

theorem expr_iff {t r : Tts ε} {x : Expr ε} :
    t.expr = .yes (x, r) ↔ t = x.write r ∧ x.Ok ∧ r.Stop := by
  constructor
  · intro h
    cases t with
    | atom e k =>
      simp only [expr, Match.yes.injEq, Prod.mk.injEq] at h
      obtain ⟨rfl, rfl⟩ := h
      refine ⟨?_, (fun i hi => by simp at hi), (takeMore_spec k).2⟩
      simp only [Expr.write]
      rw [← (takeMore_spec k).1]
    | paren i k =>
      simp only [expr] at h
      split at h
      · rename_i hi
        simp only [Match.yes.injEq, Prod.mk.injEq] at h
        obtain ⟨rfl, rfl⟩ := h
        refine ⟨?_, (fun i' hi' => by cases hi'; exact hi), (takeMore_spec k).2⟩
        simp only [Expr.write]
        rw [← (takeMore_spec k).1]
      · simp at h
    | _ => simp [expr] at h
  · rintro ⟨rfl, h1, h2⟩
    obtain ⟨hd, l⟩ := x
    cases hd with
    | atom e => simp [Expr.write, expr, takeMore_foldr l h2]
    | paren i => simp [Expr.write, expr, takeMore_foldr l h2, h1 i rfl]

theorem expr_write {x : Expr ε} {k : Tts ε} (hx : x.Ok) (hk : k.Stop) :
    (x.write k).expr = .yes (x, k) := expr_iff.2 ⟨rfl, hx, hk⟩

theorem tuple_mores (l : List ε) (k : Tts ε) : (l.foldr .more k).tuple false = k.tuple false := by
  induction l with
  | nil => rfl
  | cons e l ih => simpa [tuple] using ih

theorem tuple_write {x : Expr ε} {k : Tts ε} :
    (x.write k).tuple true = true ↔ x.Ok ∧ k.tuple false = true := by
  obtain ⟨hd, l⟩ := x
  cases hd with
  | atom e => simp [Expr.write, tuple, tuple_mores, Expr.Ok]
  | paren i => simp [Expr.write, tuple, tuple_mores, Expr.Ok]

/-- Inside a tuple no expression fails to parse. -/
theorem tuple_expr {t : Tts ε} (h : t.tuple true = true) : t.expr ≠ .fatal := by
  cases t with
  | atom e k => simp [expr]
  | paren i k =>
    simp only [tuple, Bool.and_eq_true] at h
    simp [expr, h.1]
  | brace i k => simp [tuple] at h
  | _ => simp [expr]

theorem tuple_comma {t r : Tts ε} (h : t.tuple false = true) (e : t.comma? = .yes r) :
    r.tuple true = true := by
  cases t <;> simp [comma?] at e
  subst e; simpa [tuple] using h

theorem comma_iff {t r : Tts ε} : t.comma? = .yes r ↔ t = .comma r := by
  cases t <;> simp [comma?]

theorem comma_ne {t : Tts ε} : t.comma? ≠ .fatal := by cases t <;> simp [comma?]
theorem paren_ne {t : Tts ε} : t.paren? ≠ .fatal := by cases t <;> simp [paren?]
theorem body_ne {t : Tts ε} : t.body? ≠ .fatal := by
  unfold body?; split <;> simp
theorem eof_ne {t : Tts ε} : t.eof ≠ .fatal := by cases t <;> simp [eof]
theorem trailing_ne {t : Tts ε} : t.trailing ≠ .fatal := by
  unfold trailing; split <;> exact eof_ne

theorem paren_iff {t i r : Tts ε} : t.paren? = .yes (i, r) ↔ t = .paren i r := by
  cases t <;> simp [paren?]

theorem eof_iff {t : Tts ε} : t.eof = .yes () ↔ t = .nil := by
  cases t <;> simp [eof]

theorem body_iff {t b r : Tts ε} : t.body? = .yes (b, r) ↔ t = .arrow (.brace b r) := by
  unfold body?
  split
  · simp
  · rename_i h; constructor
    · intro h'; simp at h'
    · intro h'; exact (h b r h').elim

theorem trailing_iff {t : Tts ε} : t.trailing = .yes () ↔ t = .nil ∨ t = .comma .nil := by
  unfold trailing
  split
  · rw [eof_iff]; simp
  · rename_i h
    rw [eof_iff]
    constructor
    · exact .inl
    · rintro (h' | h')
      · exact h'
      · exact (h _ h').elim

theorem pair_iff {i : Tts ε} {s e : Expr ε} :
    i.pair = .yes (s, e) ↔ i = s.write (.comma (e.write .nil)) ∧ s.Ok ∧ e.Ok := by
  unfold pair
  simp only [Match.bind_eq_yes, Match.pure_eq, Match.yes.injEq, Prod.mk.injEq, Prod.exists]
  constructor
  · rintro ⟨s', r, h1, r', h2, e', r'', h3, u, h4, rfl, rfl⟩
    obtain ⟨a, b, _⟩ := expr_iff.1 h1
    obtain ⟨c, d, _⟩ := expr_iff.1 h3
    rw [eof_iff.1 h4] at c
    rw [comma_iff.1 h2, c] at a
    exact ⟨a, b, d⟩
  · rintro ⟨rfl, hs, he⟩
    exact ⟨s, _, expr_write hs trivial, _, rfl, e, _, expr_write he trivial, (), rfl, rfl, rfl⟩

theorem pair_ne {i : Tts ε} (h : i.tuple true = true) : i.pair ≠ .fatal := by
  unfold pair
  refine Match.bind_ne (tuple_expr h) ?_
  rintro ⟨s, r⟩ e1
  obtain ⟨rfl, _, _⟩ := expr_iff.1 e1
  have h2 := (tuple_write.1 h).2
  refine Match.bind_ne comma_ne ?_
  intro r' e2
  refine Match.bind_ne (tuple_expr (tuple_comma h2 e2)) ?_
  rintro ⟨e, r''⟩ e3
  exact Match.bind_ne eof_ne (fun _ _ => Match.pure_ne _)

theorem spanned_iff {t r : Tts ε} {x s e : Expr ε} :
    t.spanned = .yes (x, s, e, r) ↔
      t = writePair x.write (writePair s.write e.write) r ∧ x.Ok ∧ s.Ok ∧ e.Ok := by
  unfold spanned
  simp only [Match.bind_eq_yes, Match.pure_eq, Match.yes.injEq, Prod.mk.injEq, Prod.exists]
  constructor
  · rintro ⟨i, rest, h1, x', r1, h2, r2, h3, p, r3, h4, s', e', h5, u, h6, rfl, rfl, rfl, rfl⟩
    obtain ⟨a, b, _⟩ := expr_iff.1 h2
    obtain ⟨c, d, d'⟩ := pair_iff.1 h5
    rw [paren_iff.1 h1, a, comma_iff.1 h3, paren_iff.1 h4, c, eof_iff.1 h6]
    exact ⟨rfl, b, d, d'⟩
  · rintro ⟨rfl, hx, hs, he⟩
    exact ⟨_, _, rfl, x, _, expr_write hx trivial, _, rfl, _, _, rfl, s, e,
      pair_iff.2 ⟨rfl, hs, he⟩, (), rfl, rfl, rfl, rfl, rfl⟩

theorem sized_iff {t r : Tts ε} {x n : Expr ε} :
    t.sized = .yes (x, n, r) ↔ t = writePair x.write n.write r ∧ x.Ok ∧ n.Ok := by
  unfold sized
  simp only [Match.bind_eq_yes, Match.pure_eq, Match.yes.injEq, Prod.mk.injEq, Prod.exists]
  constructor
  · rintro ⟨i, rest, h1, x', n', h2, rfl, rfl, rfl⟩
    obtain ⟨c, d, d'⟩ := pair_iff.1 h2
    rw [paren_iff.1 h1, c]
    exact ⟨rfl, d, d'⟩
  · rintro ⟨rfl, hx, hn⟩
    exact ⟨_, _, rfl, x, n, pair_iff.2 ⟨rfl, hx, hn⟩, rfl, rfl, rfl⟩

/-- The input starts with an expression. -/
def Starts (t : Tts ε) : Prop := ∃ (x : Expr ε) (k : Tts ε), x.Ok ∧ k.Stop ∧ t = x.write k

theorem Starts.inner {i r : Tts ε} (h : (Tts.paren i r).Starts) : i.tuple true = true := by
  obtain ⟨⟨hd, l⟩, k, hx, _, e⟩ := h
  cases hd with
  | atom e' => simp [Expr.write] at e
  | paren i' =>
    simp only [Expr.write, Tts.paren.injEq] at e
    rw [e.1]; exact hx _ rfl

theorem sized_ne {t : Tts ε} (h : t.Starts) : t.sized ≠ .fatal := by
  unfold sized
  refine Match.bind_ne paren_ne ?_
  rintro ⟨i, r⟩ e1
  rw [paren_iff.1 e1] at h
  exact Match.bind_ne (pair_ne h.inner) (fun _ _ => Match.pure_ne _)

theorem spanned_ne {t : Tts ε} (h : t.Starts) : t.spanned ≠ .fatal := by
  unfold spanned
  refine Match.bind_ne paren_ne ?_
  rintro ⟨i, rest⟩ e1
  rw [paren_iff.1 e1] at h
  have h1 := h.inner
  refine Match.bind_ne (tuple_expr h1) ?_
  rintro ⟨x, r⟩ e2
  obtain ⟨rfl, _, _⟩ := expr_iff.1 e2
  have h2 := (tuple_write.1 h1).2
  refine Match.bind_ne comma_ne ?_
  intro r1 e3
  have h3 := tuple_comma h2 e3
  refine Match.bind_ne paren_ne ?_
  rintro ⟨p, r2⟩ e4
  rw [paren_iff.1 e4] at h3
  simp only [tuple, Bool.and_eq_true] at h3
  refine Match.bind_ne (pair_ne h3.1) ?_
  rintro ⟨s, e⟩ _
  exact Match.bind_ne eof_ne (fun _ _ => Match.pure_ne _)

/-- What follows an item: nothing or a comma (`some none`), or a comma and more items. -/
def after : Tts ε → Option (Option (Tts ε))
  | .nil => some none
  | .comma .nil => some none
  | .comma r => some (some r)
  | _ => none

theorem trailing_of_after {k : Tts ε} (h : k.after = some none) : k.trailing = .yes () := by
  unfold after at h
  split at h
  · rfl
  · rfl
  · simp at h
  · simp at h

theorem after_some {k r : Tts ε} (h : k.after = some (some r)) :
    k.trailing = .no ∧ k.commaRest = .yes r ∧ k.body? = .no ∧ k = .comma r ∧ r ≠ .nil := by
  unfold after at h
  split at h
  · simp at h
  · simp at h
  · rename_i r' hr
    cases h
    refine ⟨?_, rfl, rfl, rfl, fun e => hr e⟩
    cases r <;> first | rfl | exact (hr rfl).elim
  · simp at h

theorem after_none {k : Tts ε} (h : k.after = none) :
    k.trailing = .no ∧ k.commaRest = .no := by
  unfold after at h
  split at h
  · simp at h
  · simp at h
  · simp at h
  · rename_i h1 h2 h3
    cases k with
    | nil => exact (h1 rfl).elim
    | comma r => exact (h3 r rfl).elim
    | _ => exact ⟨rfl, rfl⟩

/-- `($expr, ($start, $end))` does not match up to the end of the expression. -/
def NotSpanned (t : Tts ε) : Prop :=
  t.spanned = .no ∨ ∃ y s e m r, t.spanned = .yes (y, s, e, .more m r)

/-- `($expr, $len)` does not match up to the end of the expression. -/
def NotSized (t : Tts ε) : Prop := t.sized = .no ∨ ∃ y n m r, t.sized = .yes (y, n, .more m r)

theorem trailing_more (m : ε) (r : Tts ε) : (Tts.more m r).trailing = .no := rfl
theorem comma_more (m : ε) (r : Tts ε) : (Tts.more m r).commaRest = .no := rfl
theorem body_more (m : ε) (r : Tts ε) : (Tts.more m r).body? = .no := rfl

section
variable {t k : Tts ε} {x y n s e : Expr ε}

/-- The rule for an item that is not a node. -/
theorem first_item (hx : t.expr = .yes (x, k)) {o : Option (Tts ε)} (ho : k.after = some o) :
    (t.spanned = .yes (y, s, e, k) → t.sized = .yes (y, n, k) →
      Rule.first t = .yes ⟨.tokenWith y s e, none, o⟩) ∧
    (t.spanned = .no → t.sized = .yes (y, n, k) → Rule.first t = .yes ⟨.token y n, none, o⟩) ∧
    (t.NotSpanned → t.NotSized → Rule.first t = .yes ⟨.tokenEmpty x, none, o⟩) := by
  cases o with
  | none =>
    have ht := trailing_of_after ho
    refine ⟨fun hs hz => ?_, fun hs hz => ?_, ?_⟩
    rotate_left 2
    · rintro (hs | ⟨_, _, _, _, _, hs⟩) (hz | ⟨_, _, _, _, hz⟩) <;>
        simp [Rule.first, Rule.tokenWithLast, Rule.tokenLast, Rule.tokenWithRest, Rule.tokenRest,
          Rule.emptyLast, Rule.emptyRest, Rule.openWithLast, Rule.openLast, Rule.openWithRest,
          Rule.openRest, hs, hz, hx, ht, trailing_more, comma_more, body_more,
          Match.bind_yes, Match.bind_no, Match.pure_eq, Match.orElse]
    all_goals
      simp [Rule.first, Rule.tokenWithLast, Rule.tokenLast, Rule.tokenWithRest, Rule.tokenRest,
        Rule.emptyLast, hs, hz, hx, ht, Match.bind_yes, Match.bind_no, Match.pure_eq, Match.orElse]
  | some r =>
    obtain ⟨ht, hc, _⟩ := after_some ho
    refine ⟨fun hs hz => ?_, fun hs hz => ?_, ?_⟩
    rotate_left 2
    · rintro (hs | ⟨_, _, _, _, _, hs⟩) (hz | ⟨_, _, _, _, hz⟩) <;>
        simp [Rule.first, Rule.tokenWithLast, Rule.tokenLast, Rule.tokenWithRest, Rule.tokenRest,
          Rule.emptyLast, Rule.emptyRest, Rule.openWithLast, Rule.openLast, Rule.openWithRest,
          Rule.openRest, hs, hz, hx, ht, hc, trailing_more, comma_more, body_more,
          Match.bind_yes, Match.bind_no, Match.pure_eq, Match.orElse]
    all_goals
      simp [Rule.first, Rule.tokenWithLast, Rule.tokenLast, Rule.tokenWithRest, Rule.tokenRest,
        Rule.emptyLast, Rule.emptyRest, hs, hz, hx, ht, hc, Match.bind_yes, Match.bind_no,
        Match.pure_eq, Match.orElse]

/-- The rule for a node. -/
theorem first_node (hx : t.expr = .yes (x, k)) {b k' : Tts ε} (hk : k = .arrow (.brace b k'))
    {o : Option (Tts ε)} (ho : k'.after = some o) :
    (t.spanned = .yes (y, s, e, k) → t.sized = .yes (y, n, k) →
      Rule.first t = .yes ⟨.openWith y s e, some b, o⟩) ∧
    (t.spanned = .no → t.sized = .yes (y, n, k) → Rule.first t = .yes ⟨.open x, some b, o⟩) ∧
    (t.NotSpanned → t.NotSized → Rule.first t = .yes ⟨.open x, some b, o⟩) := by
  have h1 : k.trailing = .no := by rw [hk]; rfl
  have h2 : k.commaRest = .no := by rw [hk]; rfl
  have h3 : k.body? = .yes (b, k') := by rw [hk]; rfl
  cases o with
  | none =>
    have ht := trailing_of_after ho
    refine ⟨fun hs hz => ?_, fun hs hz => ?_, ?_⟩
    rotate_left 2
    · rintro (hs | ⟨_, _, _, _, _, hs⟩) (hz | ⟨_, _, _, _, hz⟩) <;>
        simp [Rule.first, Rule.tokenWithLast, Rule.tokenLast, Rule.tokenWithRest, Rule.tokenRest,
          Rule.emptyLast, Rule.emptyRest, Rule.openWithLast, Rule.openLast, Rule.openWithRest,
          Rule.openRest, hs, hz, hx, ht, h1, h2, h3, trailing_more, comma_more, body_more,
          Match.bind_yes, Match.bind_no, Match.pure_eq, Match.orElse]
    all_goals
      simp [Rule.first, Rule.tokenWithLast, Rule.tokenLast, Rule.tokenWithRest, Rule.tokenRest,
        Rule.emptyLast, Rule.emptyRest, Rule.openWithLast, Rule.openLast,
        hs, hz, hx, ht, h1, h2, h3, Match.bind_yes, Match.bind_no, Match.pure_eq, Match.orElse]
  | some r =>
    obtain ⟨ht, hc, _⟩ := after_some ho
    refine ⟨fun hs hz => ?_, fun hs hz => ?_, ?_⟩
    rotate_left 2
    · rintro (hs | ⟨_, _, _, _, _, hs⟩) (hz | ⟨_, _, _, _, hz⟩) <;>
        simp [Rule.first, Rule.tokenWithLast, Rule.tokenLast, Rule.tokenWithRest, Rule.tokenRest,
          Rule.emptyLast, Rule.emptyRest, Rule.openWithLast, Rule.openLast, Rule.openWithRest,
          Rule.openRest, hs, hz, hx, ht, hc, h1, h2, h3, trailing_more, comma_more, body_more,
          Match.bind_yes, Match.bind_no, Match.pure_eq, Match.orElse]
    all_goals
      simp [Rule.first, Rule.tokenWithLast, Rule.tokenLast, Rule.tokenWithRest, Rule.tokenRest,
        Rule.emptyLast, Rule.emptyRest, Rule.openWithLast, Rule.openLast, Rule.openWithRest,
        Rule.openRest,
        hs, hz, hx, ht, hc, h1, h2, h3, Match.bind_yes, Match.bind_no, Match.pure_eq, Match.orElse]

end

theorem orElse_yes {β : Type} {m m' : Match β} {x : β} (h : m.orElse m' = .yes x) :
    m = .yes x ∨ m' = .yes x := by
  cases m with
  | no => exact .inr h
  | fatal => simp [Match.orElse] at h
  | yes y => exact .inl h

/-- Whatever rule matches, the input starts with an expression, and what follows it is what follows
an item, or a body and what follows an item. -/
theorem first_yes {t : Tts ε} {R : Rhs ε} (h : Rule.first t = .yes R) :
    ∃ x k, t.expr = .yes (x, k) ∧
      (k.after.isSome ∨ ∃ b k', k = .arrow (.brace b k') ∧ k'.after.isSome) := by
  have hspan : ∀ {x s e : Expr ε} {r : Tts ε}, t.spanned = .yes (x, s, e, r) → ∃ x', r.Stop →
      t.expr = .yes (x', r) := by
    intro x s e r hh
    obtain ⟨rfl, hx, hs, he⟩ := spanned_iff.1 hh
    refine ⟨⟨.paren (x.write (.comma (writePair s.write e.write .nil))), []⟩, fun hr =>
      expr_iff.2 ⟨rfl, ?_, hr⟩⟩
    intro i hi
    cases hi
    exact tuple_write.2 ⟨hx, by
      simp only [tuple, writePair]
      rw [Bool.and_eq_true]
      exact ⟨tuple_write.2 ⟨hs, by simpa [tuple] using tuple_write.2 ⟨he, rfl⟩⟩, rfl⟩⟩
  have hsize : ∀ {x n : Expr ε} {r : Tts ε}, t.sized = .yes (x, n, r) → ∃ x', r.Stop →
      t.expr = .yes (x', r) := by
    intro x n r hh
    obtain ⟨rfl, hx, hn⟩ := sized_iff.1 hh
    refine ⟨⟨.paren (x.write (.comma (n.write .nil))), []⟩, fun hr => expr_iff.2 ⟨rfl, ?_, hr⟩⟩
    intro i hi
    cases hi
    exact tuple_write.2 ⟨hx, by simpa [tuple] using tuple_write.2 ⟨hn, rfl⟩⟩
  have ht : ∀ {r : Tts ε} {u : Unit}, r.trailing = .yes u → r.Stop ∧ r.after.isSome := by
    intro r u hh
    rcases trailing_iff.1 hh with rfl | rfl <;> exact ⟨trivial, rfl⟩
  have hc : ∀ {r r' : Tts ε}, r.commaRest = .yes r' → r.Stop ∧ r.after.isSome := by
    intro r r' hh
    rw [comma_iff.1 hh]
    refine ⟨trivial, ?_⟩
    cases r' <;> rfl
  have hb : ∀ {r b k' : Tts ε}, r.body? = .yes (b, k') → r.Stop ∧ r = .arrow (.brace b k') := by
    intro r b k' hh
    rw [body_iff.1 hh]; exact ⟨trivial, rfl⟩
  unfold Rule.first at h
  rcases orElse_yes h with h | h
  · simp only [Rule.tokenWithLast, Match.bind_eq_yes, Prod.exists] at h
    obtain ⟨x, s, e, r, h1, u, h2, _⟩ := h
    obtain ⟨x', h3⟩ := hspan h1
    exact ⟨x', r, h3 (ht h2).1, .inl (ht h2).2⟩
  rcases orElse_yes h with h | h
  · simp only [Rule.tokenLast, Match.bind_eq_yes, Prod.exists] at h
    obtain ⟨x, n, r, h1, u, h2, _⟩ := h
    obtain ⟨x', h3⟩ := hsize h1
    exact ⟨x', r, h3 (ht h2).1, .inl (ht h2).2⟩
  rcases orElse_yes h with h | h
  · simp only [Rule.tokenWithRest, Match.bind_eq_yes, Prod.exists] at h
    obtain ⟨x, s, e, r, h1, u, h2, _⟩ := h
    obtain ⟨x', h3⟩ := hspan h1
    exact ⟨x', r, h3 (hc h2).1, .inl (hc h2).2⟩
  rcases orElse_yes h with h | h
  · simp only [Rule.tokenRest, Match.bind_eq_yes, Prod.exists] at h
    obtain ⟨x, n, r, h1, u, h2, _⟩ := h
    obtain ⟨x', h3⟩ := hsize h1
    exact ⟨x', r, h3 (hc h2).1, .inl (hc h2).2⟩
  rcases orElse_yes h with h | h
  · simp only [Rule.emptyLast, Match.bind_eq_yes, Prod.exists] at h
    obtain ⟨x, r, h1, u, h2, _⟩ := h
    exact ⟨x, r, h1, .inl (ht h2).2⟩
  rcases orElse_yes h with h | h
  · simp only [Rule.emptyRest, Match.bind_eq_yes, Prod.exists] at h
    obtain ⟨x, r, h1, u, h2, _⟩ := h
    exact ⟨x, r, h1, .inl (hc h2).2⟩
  rcases orElse_yes h with h | h
  · simp only [Rule.openWithLast, Match.bind_eq_yes, Prod.exists] at h
    obtain ⟨x, s, e, r, h1, b, k', h2, u, h4, _⟩ := h
    obtain ⟨x', h3⟩ := hspan h1
    exact ⟨x', r, h3 (hb h2).1, .inr ⟨b, k', (hb h2).2, (ht h4).2⟩⟩
  rcases orElse_yes h with h | h
  · simp only [Rule.openLast, Match.bind_eq_yes, Prod.exists] at h
    obtain ⟨x, r, h1, b, k', h2, u, h4, _⟩ := h
    exact ⟨x, r, h1, .inr ⟨b, k', (hb h2).2, (ht h4).2⟩⟩
  rcases orElse_yes h with h | h
  · simp only [Rule.openWithRest, Match.bind_eq_yes, Prod.exists] at h
    obtain ⟨x, s, e, r, h1, b, k', h2, u, h4, _⟩ := h
    obtain ⟨x', h3⟩ := hspan h1
    exact ⟨x', r, h3 (hb h2).1, .inr ⟨b, k', (hb h2).2, (hc h4).2⟩⟩
  · simp only [Rule.openRest, Match.bind_eq_yes, Prod.exists] at h
    obtain ⟨x, r, h1, b, k', h2, u, h4, _⟩ := h
    exact ⟨x, r, h1, .inr ⟨b, k', (hb h2).2, (hc h4).2⟩⟩

end Tts

open Src

/-- `(x, y)` -/
def mkPair (x y : Expr ε) : Expr ε := ⟨.paren (x.write (.comma (y.write .nil))), []⟩

theorem mkPair_ok {x y : Expr ε} : (mkPair x y).Ok ↔ x.Ok ∧ y.Ok := by
  constructor
  · intro h
    have := h _ rfl
    rw [Tts.tuple_write] at this
    refine ⟨this.1, ?_⟩
    have h2 := this.2
    simp only [Tts.tuple] at h2
    exact (Tts.tuple_write.1 h2).1
  · rintro ⟨hx, hy⟩ i hi
    cases hi
    exact Tts.tuple_write.2 ⟨hx, by simpa [Tts.tuple] using Tts.tuple_write.2 ⟨hy, rfl⟩⟩

theorem write_inj {x y : Expr ε} {k k' : Tts ε} (hx : x.Ok) (hy : y.Ok) (hk : k.Stop) (hk' : k'.Stop)
    (h : x.write k = y.write k') : x = y ∧ k = k' := by
  have a := Tts.expr_write hx hk
  rw [h, Tts.expr_write hy hk'] at a
  simp only [Match.yes.injEq, Prod.mk.injEq] at a
  exact ⟨a.1.symm, a.2.symm⟩

theorem Match.eq_no {β : Type} {m : Match β} (h : m ≠ .fatal) (h' : ∀ x, m ≠ .yes x) : m = .no := by
  cases m with
  | no => rfl
  | fatal => exact absurd rfl h
  | yes x => exact absurd rfl (h' x)

theorem pair_inner {y n y' n' : Expr ε} (hy : y.Ok) (hn : n.Ok) (hy' : y'.Ok) (hn' : n'.Ok)
    (h : y.write (.comma (n.write .nil)) = y'.write (.comma (n'.write .nil))) : y = y' ∧ n = n' := by
  obtain ⟨h1, h2⟩ := write_inj (k := .comma (n.write .nil)) (k' := .comma (n'.write .nil))
    hy hy' trivial trivial h
  simp only [Tts.comma.injEq] at h2
  exact ⟨h1, (write_inj (k := .nil) (k' := .nil) hn hn' trivial trivial h2).1⟩

/-- Every expression is of one of three kinds, which decide between the rules. -/
theorem kinds {x : Expr ε} {k : Tts ε} (hx : x.Ok) (hk : k.Stop) :
    (∃ y s e, y.Ok ∧ s.Ok ∧ e.Ok ∧ x = mkPair y (mkPair s e) ∧
      (x.write k).spanned = .yes (y, s, e, k) ∧ (x.write k).sized = .yes (y, mkPair s e, k)) ∨
    (∃ y n, y.Ok ∧ n.Ok ∧ ¬ SomePair n ∧ x = mkPair y n ∧
      (x.write k).spanned = .no ∧ (x.write k).sized = .yes (y, n, k)) ∨
    (¬ SomePair x ∧ (x.write k).NotSpanned ∧ (x.write k).NotSized) := by
  have hst : (x.write k).Starts := ⟨x, k, hx, hk, rfl⟩
  by_cases h : SomePair x
  · obtain ⟨y, n, e⟩ := h
    have e' : x = mkPair y n := e
    rw [e'] at hx
    obtain ⟨hy, hn⟩ := mkPair_ok.1 hx
    by_cases h2 : SomePair n
    · obtain ⟨s, f, e2⟩ := h2
      have e2' : n = mkPair s f := e2
      rw [e2'] at hn
      obtain ⟨hs, hf⟩ := mkPair_ok.1 hn
      left
      refine ⟨y, s, f, hy, hs, hf, by rw [e', e2'], ?_, ?_⟩
      · rw [e', e2']; exact Tts.spanned_iff.2 ⟨rfl, hy, hs, hf⟩
      · rw [e', e2']; exact Tts.sized_iff.2 ⟨rfl, hy, hn⟩
    · right; left
      refine ⟨y, n, hy, hn, h2, e', Match.eq_no (Tts.spanned_ne hst) ?_, ?_⟩
      · rintro ⟨y', s, f, r⟩ hh
        obtain ⟨a, hy', hs, hf⟩ := Tts.spanned_iff.1 hh
        have a' : (mkPair y n).write k = (mkPair y' (mkPair s f)).write r := by
          rw [← e']; exact a
        have hi : y.write (.comma (n.write .nil)) = y'.write (.comma ((mkPair s f).write .nil)) := by
          have := a'
          simp only [mkPair, Expr.write, Tts.paren.injEq] at this
          exact this.1
        exact h2 ⟨s, f, (pair_inner hy hn hy' (mkPair_ok.2 ⟨hs, hf⟩) hi).2⟩
      · rw [e']; exact Tts.sized_iff.2 ⟨rfl, hy, hn⟩
  · right; right
    have key : ∀ {i r : Tts ε}, (x.write k) = .paren i r →
        (∃ y n : Expr ε, i = y.write (.comma (n.write .nil))) → ∃ m r', r = .more m r' := by
      rintro i r hh ⟨y, n, rfl⟩
      obtain ⟨hd, l⟩ := x
      cases hd with
      | atom e => simp [Expr.write] at hh
      | paren i =>
        simp only [Expr.write, Tts.paren.injEq] at hh
        cases l with
        | nil => exact (h ⟨y, n, by rw [hh.1]; rfl⟩).elim
        | cons e l => exact ⟨e, _, hh.2.symm⟩
    refine ⟨h, ?_, ?_⟩
    · rcases e1 : (x.write k).spanned with _ | _ | ⟨y, s, e, r⟩
      · exact .inl e1
      · exact absurd e1 (Tts.spanned_ne hst)
      · obtain ⟨a, _⟩ := Tts.spanned_iff.1 e1
        obtain ⟨m, r', rfl⟩ := key a ⟨y, mkPair s e, rfl⟩
        exact .inr ⟨_, _, _, _, _, e1⟩
    · rcases e1 : (x.write k).sized with _ | _ | ⟨y, n, r⟩
      · exact .inl e1
      · exact absurd e1 (Tts.sized_ne hst)
      · obtain ⟨a, _⟩ := Tts.sized_iff.1 e1
        obtain ⟨m, r', rfl⟩ := key a ⟨y, n, rfl⟩
        exact .inr ⟨_, _, _, _, e1⟩


/-! ## Lists of items -/

/-- What follows an item. -/
def Src.follow : Src ε → Option (Tts ε)
  | .nil => none
  | .trail => none
  | r => some r.write

theorem write_ne_nil {x : Expr ε} {k : Tts ε} : x.write k ≠ .nil := by
  obtain ⟨hd, l⟩ := x
  cases hd <;> simp [Expr.write]

theorem Src.write_nil {r : Src ε} (h : r.write = .nil) : r = .nil ∨ r = .trail := by
  cases r with
  | nil => exact .inl rfl
  | trail => exact .inr rfl
  | tokenEmpty x r => exact (write_ne_nil h).elim
  | «open» x k r => exact (write_ne_nil h).elim
  | _ => simp [Src.write, writePair] at h

theorem Src.after_sep (r : Src ε) : (r.sep r.write).after = some r.follow := by
  have key : ∀ t : Tts ε, t ≠ .nil → (Tts.comma t).after = some (some t) := by
    intro t ht
    cases t <;> first | rfl | exact (ht rfl).elim
  cases r with
  | nil => rfl
  | trail => rfl
  | _ =>
    refine key _ fun h => ?_
    rcases Src.write_nil h with h | h <;> simp at h

theorem Src.stop_sep (r : Src ε) : (r.sep r.write).Stop := by
  cases r <;> exact trivial

/-- The rule that matches a literal, and what it leaves to expand. -/
theorem Src.first_tokenWith {x s e : Expr ε} {r : Src ε} (hx : x.Ok) (hs : s.Ok) (he : e.Ok) :
    Rule.first (Src.tokenWith x s e r).write = .yes ⟨.tokenWith x s e, none, r.follow⟩ := by
  have hp : (mkPair x (mkPair s e)).Ok := mkPair_ok.2 ⟨hx, mkPair_ok.2 ⟨hs, he⟩⟩
  exact (Tts.first_item (t := (mkPair x (mkPair s e)).write (r.sep r.write))
    (Tts.expr_write hp r.stop_sep) r.after_sep).1
    (Tts.spanned_iff.2 ⟨rfl, hx, hs, he⟩) (Tts.sized_iff.2 ⟨rfl, hx, mkPair_ok.2 ⟨hs, he⟩⟩)

theorem Src.first_token {x n : Expr ε} {r : Src ε} (hx : x.Ok) (hn : n.Ok) (hp : ¬ SomePair n) :
    Rule.first (Src.token x n r).write = .yes ⟨.token x n, none, r.follow⟩ := by
  have ho : (mkPair x n).Ok := mkPair_ok.2 ⟨hx, hn⟩
  have hz : ((mkPair x n).write (r.sep r.write)).sized = .yes (x, n, r.sep r.write) :=
    Tts.sized_iff.2 ⟨rfl, hx, hn⟩
  rcases kinds ho r.stop_sep with ⟨y, s, e, hy, hs, he, h, _, _⟩ | ⟨y, m, hy, hm, h1, h2, h3, h4⟩ | ⟨h, _⟩
  · have := pair_inner hx hn hy (mkPair_ok.2 ⟨hs, he⟩) (by
      simp only [mkPair, Expr.mk.injEq, Head.paren.injEq] at h; exact h.1)
    exact (hp ⟨s, e, this.2⟩).elim
  · exact (Tts.first_item (s := x) (e := x) (Tts.expr_write ho r.stop_sep) r.after_sep).2.1 h3 hz
  · exact (h ⟨x, n, rfl⟩).elim

theorem Src.first_tokenEmpty {x : Expr ε} {r : Src ε} (hx : x.Ok) (hp : ¬ SomePair x) :
    Rule.first (Src.tokenEmpty x r).write = .yes ⟨.tokenEmpty x, none, r.follow⟩ := by
  rcases kinds hx r.stop_sep with ⟨y, s, e, hy, hs, he, h, _, _⟩ | ⟨y, m, hy, hm, h1, h2, h3, h4⟩ | ⟨h, h1, h2⟩
  · exact (hp ⟨_, _, h⟩).elim
  · exact (hp ⟨_, _, h2⟩).elim
  · exact (Tts.first_item (y := x) (n := x) (s := x) (e := x) (Tts.expr_write hx r.stop_sep)
      r.after_sep).2.2 h1 h2

theorem Src.first_openWith {x s e : Expr ε} {k r : Src ε} (hx : x.Ok) (hs : s.Ok) (he : e.Ok) :
    Rule.first (Src.openWith x s e k r).write = .yes ⟨.openWith x s e, some k.write, r.follow⟩ := by
  have hp : (mkPair x (mkPair s e)).Ok := mkPair_ok.2 ⟨hx, mkPair_ok.2 ⟨hs, he⟩⟩
  exact (Tts.first_node
    (t := (mkPair x (mkPair s e)).write (.arrow (.brace k.write (r.sep r.write))))
    (Tts.expr_write hp trivial) rfl r.after_sep).1
    (Tts.spanned_iff.2 ⟨rfl, hx, hs, he⟩) (Tts.sized_iff.2 ⟨rfl, hx, mkPair_ok.2 ⟨hs, he⟩⟩)

theorem Src.first_open {x : Expr ε} {k r : Src ε} (hx : x.Ok)
    (hp : ∀ y z, SomePair z → ¬ IsPair y z x) :
    Rule.first (Src.open x k r).write = .yes ⟨.open x, some k.write, r.follow⟩ := by
  have hst : (Tts.arrow (.brace k.write (r.sep r.write))).Stop := trivial
  rcases kinds hx hst with ⟨y, s, e, hy, hs, he, h, _, _⟩ | ⟨y, m, hy, hm, h1, h2, h3, h4⟩ | ⟨h, h1, h2⟩
  · exact (hp y (mkPair s e) ⟨s, e, rfl⟩ h).elim
  · exact (Tts.first_node (s := x) (e := x) (Tts.expr_write hx hst) rfl r.after_sep).2.1 h3 h4
  · exact (Tts.first_node (y := x) (n := x) (s := x) (e := x) (Tts.expr_write hx hst) rfl
      r.after_sep).2.2 h1 h2

/-- The calls of what follows an item. -/
def Tts.optCalls (limit : Nat) : Option (Tts ε) → Option (List (MCall ε))
  | none => some []
  | some t => t.calls limit

/-- The calls of a body. -/
def Tts.bodyCalls (limit : Nat) : Option (Tts ε) → Option (List (MCall ε))
  | none => some []
  | some t => (t.calls limit).bind fun cs => some (cs ++ [.close])

/-- The expansion of what follows an item. -/
theorem Src.follow_calls {r : Src ε} {limit : Nat} (cs : List (MCall ε))
    (hc : r.calls = cs)
    (h : r.write.calls limit = if max 1 r.nested ≤ limit then some cs else none) :
    Tts.optCalls limit r.follow = if r.nested ≤ limit then some cs else none := by
  cases r with
  | nil => rw [if_pos (show Src.nil.nested ≤ limit from Nat.zero_le _), ← hc]; rfl
  | trail => rw [if_pos (show Src.trail.nested ≤ limit from Nat.zero_le _), ← hc]; rfl
  | tokenWith x s e r =>
    simp only [Src.follow, Tts.optCalls]; rw [h]
    have : max 1 (Src.tokenWith x s e r).nested = (Src.tokenWith x s e r).nested := by
      simp only [Src.nested]; omega
    rw [this]
  | token x n r =>
    simp only [Src.follow, Tts.optCalls]; rw [h]
    have : max 1 (Src.token x n r).nested = (Src.token x n r).nested := by
      simp only [Src.nested]; omega
    rw [this]
  | tokenEmpty x r =>
    simp only [Src.follow, Tts.optCalls]; rw [h]
    have : max 1 (Src.tokenEmpty x r).nested = (Src.tokenEmpty x r).nested := by
      simp only [Src.nested]; omega
    rw [this]
  | openWith x s e k r =>
    simp only [Src.follow, Tts.optCalls]; rw [h]
    have : max 1 (Src.openWith x s e k r).nested = (Src.openWith x s e k r).nested := by
      simp only [Src.nested]; omega
    rw [this]
  | «open» x k r =>
    simp only [Src.follow, Tts.optCalls]; rw [h]
    have : max 1 (Src.open x k r).nested = (Src.open x k r).nested := by
      simp only [Src.nested]; omega
    rw [this]

theorem Tts.calls_succ {t : Tts ε} (ht : t ≠ .nil) (limit : Nat) {c : MCall ε} {body rest : Option (Tts ε)}
    (h : Rule.first t = .yes ⟨c, body, rest⟩) :
    t.calls (limit + 1) = (Tts.bodyCalls limit body).bind fun inner =>
      (Tts.optCalls limit rest).bind fun after => some (c :: (inner ++ after)) := by
  have : t.calls (limit + 1) = (match Rule.first t with
    | .no => none
    | .fatal => none
    | .yes ⟨c, body, rest⟩ => do
      let inner ← match body with
        | none => some []
        | some b => do
          let cs ← Tts.calls limit b
          some (cs ++ [.close])
      let after ← match rest with
        | none => some []
        | some r => Tts.calls limit r
      some (c :: (inner ++ after))) := by
    cases t with
    | nil => exact (ht rfl).elim
    | _ => rfl
  rw [this, h]
  cases body with
  | none => cases rest <;> simp [Tts.bodyCalls, Tts.optCalls]
  | some b =>
    cases hb : Tts.calls limit b <;> cases rest <;> simp [Tts.bodyCalls, Tts.optCalls, hb]

/-- Every clear literal expands to the calls its author expects, if the compiler allows as many
nested expansions as there are, and does not compile otherwise. -/
theorem Src.calls_write : ∀ (s : Src ε), s.Clear → ∀ limit,
    s.write.calls limit = if max 1 s.nested ≤ limit then some s.calls else none
  | .nil, _, limit => by
    cases limit with
    | zero => rfl
    | succ n => rw [if_pos (by simp [Src.nested])]; rfl
  | .trail, _, limit => by
    cases limit with
    | zero => rfl
    | succ n => rw [if_pos (by simp [Src.nested])]; rfl
  | .tokenWith x s e r, hc, limit => by
    cases limit with
    | zero => simp only [Tts.calls]; rw [if_neg (by omega)]
    | succ n =>
      obtain ⟨h1, h2, h3, h4⟩ := hc
      have ih := Src.follow_calls r.calls rfl (calls_write r h4 n)
      rw [Tts.calls_succ (by simp [Src.write, writePair]) n (Src.first_tokenWith h1 h2 h3)]
      rw [ih]
      simp only [Tts.bodyCalls]
      by_cases hn : r.nested ≤ n
      · rw [if_pos hn, if_pos (by simp only [Src.nested]; omega)]; rfl
      · rw [if_neg hn, if_neg (by simp only [Src.nested]; omega)]; rfl
  | .token x m r, hc, limit => by
    cases limit with
    | zero => simp only [Tts.calls]; rw [if_neg (by omega)]
    | succ n =>
      obtain ⟨h1, h2, h3, h4⟩ := hc
      have ih := Src.follow_calls r.calls rfl (calls_write r h4 n)
      rw [Tts.calls_succ (by simp [Src.write, writePair]) n (Src.first_token h1 h2 h3)]
      rw [ih]
      simp only [Tts.bodyCalls]
      by_cases hn : r.nested ≤ n
      · rw [if_pos hn, if_pos (by simp only [Src.nested]; omega)]; rfl
      · rw [if_neg hn, if_neg (by simp only [Src.nested]; omega)]; rfl
  | .tokenEmpty x r, hc, limit => by
    cases limit with
    | zero => simp only [Tts.calls]; rw [if_neg (by omega)]
    | succ n =>
      obtain ⟨h1, h2, h4⟩ := hc
      have ih := Src.follow_calls r.calls rfl (calls_write r h4 n)
      rw [Tts.calls_succ (t := (Src.tokenEmpty x r).write) write_ne_nil n (Src.first_tokenEmpty h1 h2)]
      rw [ih]
      simp only [Tts.bodyCalls]
      by_cases hn : r.nested ≤ n
      · rw [if_pos hn, if_pos (by simp only [Src.nested]; omega)]; rfl
      · rw [if_neg hn, if_neg (by simp only [Src.nested]; omega)]; rfl
  | .openWith x s e k r, hc, limit => by
    cases limit with
    | zero => simp only [Tts.calls]; rw [if_neg (by omega)]
    | succ n =>
      obtain ⟨h1, h2, h3, h4, h5⟩ := hc
      have ih := Src.follow_calls r.calls rfl (calls_write r h5 n)
      have ih' := calls_write k h4 n
      rw [Tts.calls_succ (by simp [Src.write, writePair]) n (Src.first_openWith h1 h2 h3)]
      simp only [Tts.bodyCalls]
      rw [ih, ih']
      by_cases hk : max 1 k.nested ≤ n
      · rw [if_pos hk]
        by_cases hn : r.nested ≤ n
        · rw [if_pos hn, if_pos (by simp only [Src.nested]; omega)]
          simp only [Option.bind_some, List.append_assoc, List.singleton_append, Src.calls]
        · rw [if_neg hn]; simp only [Option.bind_none, Option.bind_some]
          rw [if_neg (by simp only [Src.nested]; omega)]
      · rw [if_neg hk]; simp only [Option.bind_none]
        rw [if_neg (by simp only [Src.nested]; omega)]
  | .open x k r, hc, limit => by
    cases limit with
    | zero => simp only [Tts.calls]; rw [if_neg (by omega)]
    | succ n =>
      obtain ⟨h1, h2, h4, h5⟩ := hc
      have ih := Src.follow_calls r.calls rfl (calls_write r h5 n)
      have ih' := calls_write k h4 n
      rw [Tts.calls_succ (t := (Src.open x k r).write) write_ne_nil n (Src.first_open h1 h2)]
      simp only [Tts.bodyCalls]
      rw [ih, ih']
      by_cases hk : max 1 k.nested ≤ n
      · rw [if_pos hk]
        by_cases hn : r.nested ≤ n
        · rw [if_pos hn, if_pos (by simp only [Src.nested]; omega)]
          simp only [Option.bind_some, List.append_assoc, List.singleton_append, Src.calls]
        · rw [if_neg hn]; simp only [Option.bind_none, Option.bind_some]
          rw [if_neg (by simp only [Src.nested]; omega)]
      · rw [if_neg hk]; simp only [Option.bind_none]
        rw [if_neg (by simp only [Src.nested]; omega)]

/-- What follows an item, read back. -/
theorem Src.of_after {k : Tts ε} {o : Option (Tts ε)} (h : k.after = some o) {limit : Nat}
    {cs : List (MCall ε)}
    (hc : Tts.optCalls limit o = some cs)
    (ih : ∀ t cs, t.calls limit = some cs → ∃ s : Src ε, s.Clear ∧ s.write = t ∧ s.calls = cs) :
    ∃ r : Src ε, r.Clear ∧ r.sep r.write = k ∧ r.calls = cs := by
  cases o with
  | none =>
    simp only [Tts.optCalls, Option.some.injEq] at hc
    subst hc
    rcases Tts.trailing_iff.1 (Tts.trailing_of_after h) with rfl | rfl
    · exact ⟨.nil, trivial, rfl, rfl⟩
    · exact ⟨.trail, trivial, rfl, rfl⟩
  | some t =>
    obtain ⟨_, _, _, rfl, ht⟩ := Tts.after_some h
    obtain ⟨s, h1, h2, h3⟩ := ih t cs hc
    refine ⟨s, h1, ?_, h3⟩
    rw [h2]
    cases s with
    | nil => exact (ht h2.symm).elim
    | _ => rfl

/-- Whatever compiles is a clear literal, and the calls are the ones of this literal. -/
theorem Tts.calls_inv : ∀ (limit : Nat) (t : Tts ε) (cs : List (MCall ε)), t.calls limit = some cs →
    ∃ s : Src ε, s.Clear ∧ s.write = t ∧ s.calls = cs
  | 0, t, cs, h => by simp [Tts.calls] at h
  | n + 1, t, cs, h => by
    have ih := calls_inv n
    by_cases ht : t = .nil
    · subst ht
      simp only [Tts.calls, Option.some.injEq] at h
      exact ⟨.nil, trivial, rfl, h⟩
    rcases hf : Rule.first t with _ | _ | ⟨c, body, rest⟩
    · cases t with
      | nil => exact (ht rfl).elim
      | _ => simp [Tts.calls, hf] at h
    · cases t with
      | nil => exact (ht rfl).elim
      | _ => simp [Tts.calls, hf] at h
    rw [Tts.calls_succ ht n hf] at h
    obtain ⟨x, k, hx, hk⟩ := Tts.first_yes hf
    obtain ⟨rfl, hxo, hks⟩ := Tts.expr_iff.1 hx
    rcases hk with hk | ⟨b, k', rfl, hk⟩
    · obtain ⟨o, ho⟩ := Option.isSome_iff_exists.1 hk
      rcases kinds hxo hks with ⟨y, s, e, hy, hs, he, hp, h1, h2⟩ | ⟨y, m, hy, hm, hnp, hp, h1, h2⟩ | ⟨hp, h1, h2⟩
      · have := (Tts.first_item hx ho).1 h1 h2
        rw [hf] at this
        simp only [Match.yes.injEq, Rhs.mk.injEq] at this
        obtain ⟨rfl, rfl, rfl⟩ := this
        simp only [Tts.bodyCalls, Option.bind_some, Option.bind_eq_some_iff, Option.some.injEq] at h
        obtain ⟨a, ha, rfl⟩ := h
        obtain ⟨r, g1, g2, g3⟩ := Src.of_after ho ha ih
        refine ⟨.tokenWith y s e r, ⟨hy, hs, he, g1⟩, ?_, by simp [Src.calls, g3]⟩
        rw [hp, ← g2]; rfl
      · have := (Tts.first_item (s := y) (e := y) hx ho).2.1 h1 h2
        rw [hf] at this
        simp only [Match.yes.injEq, Rhs.mk.injEq] at this
        obtain ⟨rfl, rfl, rfl⟩ := this
        simp only [Tts.bodyCalls, Option.bind_some, Option.bind_eq_some_iff, Option.some.injEq] at h
        obtain ⟨a, ha, rfl⟩ := h
        obtain ⟨r, g1, g2, g3⟩ := Src.of_after ho ha ih
        refine ⟨.token y m r, ⟨hy, hm, hnp, g1⟩, ?_, by simp [Src.calls, g3]⟩
        rw [hp, ← g2]; rfl
      · have := (Tts.first_item (y := x) (n := x) (s := x) (e := x) hx ho).2.2 h1 h2
        rw [hf] at this
        simp only [Match.yes.injEq, Rhs.mk.injEq] at this
        obtain ⟨rfl, rfl, rfl⟩ := this
        simp only [Tts.bodyCalls, Option.bind_some, Option.bind_eq_some_iff, Option.some.injEq] at h
        obtain ⟨a, ha, rfl⟩ := h
        obtain ⟨r, g1, g2, g3⟩ := Src.of_after ho ha ih
        refine ⟨.tokenEmpty x r, ⟨hxo, hp, g1⟩, ?_, by simp [Src.calls, g3]⟩
        rw [← g2]; rfl
    · obtain ⟨o, ho⟩ := Option.isSome_iff_exists.1 hk
      have fin : ∀ {c' : MCall ε}, Rhs.mk c body rest = ⟨c', some b, o⟩ → ∃ kids r : Src ε,
          kids.Clear ∧ r.Clear ∧ kids.write = b ∧ r.sep r.write = k' ∧
          cs = c' :: (kids.calls ++ .close :: r.calls) := by
        intro c' e
        simp only [Rhs.mk.injEq] at e
        obtain ⟨rfl, rfl, rfl⟩ := e
        simp only [Tts.bodyCalls, Option.bind_eq_some_iff, Option.some.injEq] at h
        obtain ⟨i, ⟨i', hi, rfl⟩, a, ha, rfl⟩ := h
        obtain ⟨kids, g1, g2, g3⟩ := ih b i' hi
        obtain ⟨r, f1, f2, f3⟩ := Src.of_after ho ha ih
        exact ⟨kids, r, g1, f1, g2, f2, by simp [g3, f3]⟩
      rcases kinds hxo hks with ⟨y, s, e, hy, hs, he, hp, h1, h2⟩ | ⟨y, m, hy, hm, hnp, hp, h1, h2⟩ | ⟨hp, h1, h2⟩
      · have := (Tts.first_node hx rfl ho).1 h1 h2
        rw [hf] at this
        simp only [Match.yes.injEq] at this
        obtain ⟨kids, r, g1, f1, g2, f2, rfl⟩ := fin this
        refine ⟨.openWith y s e kids r, ⟨hy, hs, he, g1, f1⟩, ?_, rfl⟩
        rw [hp, ← f2, ← g2]; rfl
      · have := (Tts.first_node (s := y) (e := y) hx rfl ho).2.1 h1 h2
        rw [hf] at this
        simp only [Match.yes.injEq] at this
        obtain ⟨kids, r, g1, f1, g2, f2, rfl⟩ := fin this
        refine ⟨.open x kids r, ⟨hxo, ?_, g1, f1⟩, ?_, rfl⟩
        · intro y' z hz hq
          have hq' : x = mkPair y' z := hq
          have ho' := mkPair_ok.1 (hq' ▸ hxo)
          have := pair_inner hy hm ho'.1 ho'.2 (by
            have hh := hp.symm.trans hq'
            simp only [mkPair, Expr.mk.injEq, Head.paren.injEq] at hh; exact hh.1)
          exact hnp (this.2 ▸ hz)
        · rw [← f2, ← g2]; rfl
      · have := (Tts.first_node (y := x) (n := x) (s := x) (e := x) hx rfl ho).2.2 h1 h2
        rw [hf] at this
        simp only [Match.yes.injEq] at this
        obtain ⟨kids, r, g1, f1, g2, f2, rfl⟩ := fin this
        refine ⟨.open x kids r, ⟨hxo, ?_, g1, f1⟩, ?_, rfl⟩
        · intro y' z hz hq
          exact hp ⟨y', z, hq⟩
        · rw [← f2, ← g2]; rfl

/-- The calls of a literal, with the arguments evaluated. -/
theorem Src.lit_calls {α : Type} (val : Expr ε → α) (num : Expr ε → Nat) (s : Src ε) :
    s.calls.map (MCall.op val num) = (s.lit val num).calls := by
  induction s with
  | nil => rfl
  | trail => rfl
  | tokenWith x a b r ih => simp [Src.calls, Src.lit, Lit.calls, MCall.op, ih]
  | token x n r ih => simp [Src.calls, Src.lit, Lit.calls, MCall.op, ih]
  | tokenEmpty x r ih => simp [Src.calls, Src.lit, Lit.calls, MCall.op, ih]
  | openWith x a b k r ih1 ih2 => simp [Src.calls, Src.lit, Lit.calls, MCall.op, ih1, ih2]
  | «open» x k r ih1 ih2 => simp [Src.calls, Src.lit, Lit.calls, MCall.op, ih1, ih2]

end Syntree
