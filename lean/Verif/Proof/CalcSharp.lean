import Verif.Proof.CalcTall

/-! Texts for which the bounds on the recursion of the calculator are reached. -/

namespace Syntree.Calc

open Forest

/-! ## Too few frames -/

/-- The tokens the parser will see. -/
def Coming (p : Parser) (ts : List Token) : Prop :=
  (p.buf = none ∧ Yields Lexer.iter p.lexer ts) ∨
  ∃ t ts', p.buf = some t ∧ ts = t :: ts' ∧ Yields Lexer.iter p.lexer ts'

theorem Coming.congr {p q : Parser} {ts : List Token} (h : Coming p ts)
    (e : q.lexer = p.lexer ∧ q.buf = p.buf) : Coming q ts := by
  unfold Coming; rw [e.1, e.2]; exact h

theorem Coming.peek {p p' : Parser} {t t' : Token} {ts : List Token} (h : Coming p (t :: ts))
    (hw : t.syn ≠ .whitespace) (hp : peek p = .ok (t', p')) :
    t' = t ∧ p'.buf = some t ∧ Yields Lexer.iter p'.lexer ts := by
  have hb := peek_buf hp
  obtain ⟨_, q, h1, h2⟩ := bind_inv hp
  simp only [Except.ok.injEq, Prod.mk.injEq] at h2
  obtain ⟨h2, rfl⟩ := h2
  rcases h with ⟨hn, hy⟩ | ⟨t1, ts1, hs, e, hy⟩
  · unfold fill fillLoop at h1
    rw [hn] at h1
    cases hy with
    | item e hy =>
      unfold Lexer.iter at e
      cases hx : p.lexer.next with
      | mk l o =>
        rw [hx] at e h1
        cases o with
        | none => simp [Got.ofOption] at e
        | some tok =>
          simp only [Got.ofOption, Prod.mk.injEq, Got.some.injEq] at e
          obtain ⟨rfl, rfl⟩ := e
          simp only [hw, if_false, Except.ok.injEq, Prod.mk.injEq] at h1
          obtain ⟨_, rfl⟩ := h1
          exact ⟨hb.symm, rfl, hy⟩
  · obtain ⟨rfl, rfl⟩ : t = t1 ∧ ts = ts1 := by simpa using e
    unfold fill fillLoop at h1
    rw [hs] at h1
    simp only [Except.ok.injEq, Prod.mk.injEq] at h1
    obtain ⟨_, rfl⟩ := h1
    rw [hs] at hb
    exact ⟨hb.symm, hs, hy⟩

theorem Coming.seen {p : Parser} {t : Token} {ts : List Token} (hb : p.buf = some t)
    (hy : Yields Lexer.iter p.lexer ts) : Coming p (t :: ts) := Or.inr ⟨t, ts, hb, rfl, hy⟩

theorem Coming.step {p p' : Parser} {t t' : Token} {ts : List Token} (h : Coming p (t :: ts))
    (hw : t.syn ≠ .whitespace) (hp : step p = .ok (t', p')) : Coming p' ts := by
  obtain ⟨t1, q, h1, h2⟩ := bind_inv hp
  simp only [Except.ok.injEq, Prod.mk.injEq] at h2
  obtain ⟨_, rfl⟩ := h2
  obtain ⟨_, _, hy⟩ := h.peek hw h1
  exact Or.inl ⟨rfl, hy⟩

theorem pure_inv {β : Type} {a b : β} {p p' : Parser} (h : (pure a : P β) p = .ok (b, p')) :
    a = b ∧ p = p' := by
  change Except.ok (a, p) = _ at h
  simpa using h

theorem Coming.token {p p' : Parser} {t : Token} {ts : List Token} {u : Unit}
    (h : Coming p (t :: ts)) (hw : t.syn ≠ .whitespace) (hp : token p = .ok (u, p')) :
    Coming p' ts := by
  obtain ⟨t1, q, h1, h2⟩ := bind_inv hp
  obtain ⟨_, q', h3, h4⟩ := bind_inv h2
  obtain ⟨_, rfl⟩ := pure_inv h4
  exact (h.step hw h1).congr (call_keeps h3)

theorem Coming.bump {p p' : Parser} {t : Token} {ts : List Token} {k : Syn} {u : Unit}
    (h : Coming p (t :: ts)) (hw : t.syn ≠ .whitespace) (hp : bump k p = .ok (u, p')) :
    Coming p' ts := by
  obtain ⟨t1, q, h1, h2⟩ := bind_inv hp
  obtain ⟨_, q', h3, h4⟩ := bind_inv h2
  obtain ⟨_, q2, h5, h6⟩ := bind_inv h4
  obtain ⟨_, q3, h7, h8⟩ := bind_inv h6
  obtain ⟨_, rfl⟩ := pure_inv h8
  exact ((((h.step hw h1).congr (call_keeps h3)).congr (call_keeps h5)).congr (call_keeps h7))

/-- With `d` frames, `expr` does not come back from the tokens. -/
def Dead (d min : Nat) (ts : List Token) : Prop := ∀ (fuel : Nat) (p p' : Parser) (u : Unit),
  Coming p ts → exprIn fuel d min p ≠ .ok (u, p')

theorem Dead.zero (min : Nat) (ts : List Token) : Dead 0 min ts := by
  intro fuel p p' u _ h
  cases fuel with
  | zero => unfold exprIn at h; cases h
  | succ fuel => unfold exprIn at h; cases h

theorem Dead.paren {d min len : Nat} {ts : List Token} (h : Dead d 0 ts) :
    Dead (d + 1) min (⟨len, .openParen⟩ :: ts) := by
  intro fuel p p' u hc he
  cases fuel with
  | zero => unfold exprIn at he; cases he
  | succ fuel =>
    rw [exprIn] at he
    obtain ⟨t, q, h1, he⟩ := bind_inv he
    obtain ⟨rfl, hb, hy⟩ := hc.peek (by simp) h1
    obtain ⟨c, q1, h2, he⟩ := bind_inv he
    obtain ⟨go, q2, h3, _⟩ := bind_inv he
    obtain ⟨_, q3, h4, h3⟩ := bind_inv h3
    obtain ⟨_, q4, h5, h3⟩ := bind_inv h3
    obtain ⟨_, q5, h6, h3⟩ := bind_inv h3
    have c1 : Coming q1 _ := (Coming.seen hb hy).congr (checkpoint_keeps h2)
    exact h fuel q4 q5 _ ((c1.token (by simp) h4).congr (checkpoint_keeps h5)) h6

theorem Dead.operator {d min left right l1 l2 : Nat} {k : Syn} {ts : List Token}
    (h : Dead d right ts) (ho : op k = some (left, right)) (hm : left ≥ min) :
    Dead (d + 1) min (⟨l1, .number⟩ :: ⟨l2, k⟩ :: ts) := by
  intro fuel p p' u hc he
  have hk : k ≠ .whitespace := by rintro rfl; simp [op] at ho
  cases fuel with
  | zero => unfold exprIn at he; cases he
  | succ fuel =>
    rw [exprIn] at he
    obtain ⟨t, q, h1, he⟩ := bind_inv he
    obtain ⟨rfl, hb, hy⟩ := hc.peek (by simp) h1
    obtain ⟨c, q1, h2, he⟩ := bind_inv he
    obtain ⟨go, q2, h3, he⟩ := bind_inv he
    obtain ⟨_, q3, h4, h3⟩ := bind_inv h3
    obtain ⟨rfl, rfl⟩ := pure_inv h3
    have c1 : Coming q1 _ := (Coming.seen hb hy).congr (checkpoint_keeps h2)
    have c3 := c1.bump (by simp) h4
    rw [if_pos rfl] at he
    obtain ⟨_, q4, h5, _⟩ := bind_inv he
    cases fuel with
    | zero => unfold exprLoopIn at h5; cases h5
    | succ fuel =>
      rw [exprLoopIn] at h5
      obtain ⟨t, q5, h6, h5⟩ := bind_inv h5
      obtain ⟨rfl, hb, hy⟩ := c3.peek hk h6
      simp only [ho, if_pos hm] at h5
      obtain ⟨_, q6, h7, h5⟩ := bind_inv h5
      obtain ⟨_, q7, h8, h5⟩ := bind_inv h5
      exact h fuel q6 q7 _ ((Coming.seen hb hy).bump hk h7) h8

/-! ## Tall trees -/

/-- `expr` makes at least `a` levels and `b` nested operations of the tokens. -/
def Makes (a b min : Nat) (ts : List Token) : Prop := ∀ (fuel : Nat) (s s' : St), s.toks = ts →
  pexpr fuel min s = some s' → ∃ G u, Ext s s' G u ∧ a ≤ tall G ∧ b ≤ nested G

theorem ploop_true (fuel : Nat) : ∀ (min : Nat) (s s' : St) (o : Bool),
    ploop fuel min true s = some (o, s') → o = true := by
  induction fuel with
  | zero => intro min s s' o h; simp [ploop] at h
  | succ fuel ih =>
    intro min s s' o h
    rw [ploop] at h
    split at h
    · simp only [Option.some.injEq, Prod.mk.injEq] at h; exact h.1.symm
    · split at h
      · split at h
        · simp at h
        · exact ih _ _ _ _ h
      · simp only [Option.some.injEq, Prod.mk.injEq] at h; exact h.1.symm

theorem skip_of_cons {s : St} {t : Token} {ts : List Token} (h : s.toks = t :: ts)
    (hw : t.syn ≠ .whitespace) : s.skip = s := by
  cases s with
  | mk L toks =>
    simp only at h; subst h
    simp [St.skip, skipWs, hw]

theorem tall_wrapped {G : Forest (Syn × Span)} {d : Syn} {a b : Nat} (h : G ≠ .nil) :
    tall (wrapped G d a b) = 1 + tall G := by
  cases G with
  | nil => exact absurd rfl h
  | cons y k k' => simp [wrapped, single, tall]

theorem Makes.number {min l : Nat} {ts : List Token} : Makes 1 0 min (⟨l, .number⟩ :: ts) := by
  intro fuel s s' hs h
  have hk := skip_of_cons hs (by simp)
  cases fuel with
  | zero => simp [pexpr] at h
  | succ fuel =>
    rw [pexpr, hk] at h
    have hh : s.head.syn = .number := by simp [St.head, hs]
    simp only [hh] at h
    rw [if_neg (by simp), if_pos trivial] at h
    obtain ⟨o, s2, e, rfl⟩ := finish_some h
    obtain ⟨G, u, h2⟩ := (pexpr_ext fuel).2 _ _ _ _ _ e
    have h3 := (Ext.bump s .number).trans h2
    have ht : 1 ≤ tall (bumped s .number ++ G) := by
      rw [tall_append]; simp [bumped, single, leaf, tall]; omega
    cases o with
    | false => exact ⟨_, _, h3, ht, Nat.zero_le _⟩
    | true =>
      refine ⟨_, _, h3.wrap .operation, ?_, Nat.zero_le _⟩
      rw [tall_wrapped (by simp [bumped, single])]; omega

theorem Makes.operator {a b min left right l1 l2 : Nat} {k : Syn} {ts : List Token}
    (h : Makes a b right ts) (ho : op k = some (left, right)) (hm : left ≥ min) :
    Makes (a + 1) (b + 1) min (⟨l1, .number⟩ :: ⟨l2, k⟩ :: ts) := by
  intro fuel s s' hs he
  have hw : k ≠ .whitespace := by rintro rfl; simp [op] at ho
  have hk := skip_of_cons hs (by simp)
  cases fuel with
  | zero => simp [pexpr] at he
  | succ fuel =>
    rw [pexpr, hk] at he
    have hh : s.head.syn = .number := by simp [St.head, hs]
    simp only [hh] at he
    rw [if_neg (by simp), if_pos trivial] at he
    obtain ⟨o, s2, e, rfl⟩ := finish_some he
    cases fuel with
    | zero => simp [ploop] at e
    | succ fuel =>
      have h1 : (s.bump .number).toks = ⟨l2, k⟩ :: ts := by simp [St.bump, hs]
      rw [ploop, skip_of_cons h1 hw] at e
      have hh : op (s.bump .number).head.syn = some (left, right) := by simp [St.head, h1, ho]
      simp only [hh, if_pos hm] at e
      split at e
      · simp at e
      · rename_i s3 e3
        obtain ⟨G, u, x3, a3, b3⟩ := h fuel _ _ (by simp [St.bump, hs]) e3
        obtain ⟨G', u', x4⟩ := (pexpr_ext fuel).2 _ _ _ _ _ e
        obtain rfl := ploop_true _ _ _ _ _ e
        have x := (((Ext.bump s .number).trans (Ext.bump _ .operator)).trans x3).trans x4
        refine ⟨_, _, x.wrap .operation, ?_, ?_⟩
        · rw [tall_wrapped (by simp [bumped, single])]
          simp only [tall_append]; omega
        · simp only [wrapped, single, nested, if_true, nested_append]; omega

theorem Makes.paren {a b min l : Nat} {ts : List Token} (h : Makes a b 0 ts) (ha : 1 ≤ a) :
    Makes (a + 1) b min (⟨l, .openParen⟩ :: ts) := by
  intro fuel s s' hs he
  have hk := skip_of_cons hs (by simp)
  cases fuel with
  | zero => simp [pexpr] at he
  | succ fuel =>
    rw [pexpr, hk] at he
    have hh : s.head.syn = .openParen := by simp [St.head, hs]
    rw [if_pos hh] at he
    split at he
    · simp at he
    · rename_i s2 e2
      obtain ⟨G, u, x2, a2, b2⟩ := h fuel _ _ (by simp [St.take, hs]) e2
      have hG : G ≠ .nil := by rintro rfl; simp [tall] at a2; omega
      have x3 := (Ext.take s (by simp [hs])).trans (x2.wrap .group)
      obtain ⟨G4, u4, x4, _⟩ := Ext.skip (s2.wrap s.take.width .group)
      have x5 := x3.trans x4
      have b3 : nested (wrapped G .group s.take.lev.pos s2.lev.pos) = nested G := by
        simp [wrapped, single, nested]
      split at he
      · rename_i hc
        obtain ⟨o, s6, e6, rfl⟩ := finish_some he
        obtain ⟨G7, u7, x7⟩ := (pexpr_ext fuel).2 _ _ _ _ _ e6
        have x8 := (x5.trans (Ext.take _ (head_toks hc (by simp)))).trans x7
        cases o with
        | false =>
          refine ⟨_, _, x8, ?_, ?_⟩
          · simp only [tall_append, tall_wrapped hG]; omega
          · simp only [nested_append, b3]; omega
        | true =>
          refine ⟨_, _, x8.wrap .operation, ?_, ?_⟩
          · rw [tall_wrapped (by simp [single])]
            simp only [tall_append, tall_wrapped hG]; omega
          · simp only [wrapped, single, nested, if_true]
            simp only [← wrapped.eq_1, nested_append, b3]; omega
      · simp only [Option.some.injEq] at he
        subst he
        refine ⟨_, _, x5.trans (Ext.bump _ _), ?_, ?_⟩
        · simp only [tall_append, tall_wrapped hG]; omega
        · simp only [nested_append, b3]; omega

/-- A nested list has a path as long as it is tall. -/
theorem tall_loc {β : Type} {F : Forest β} (h : tall F ≠ 0) :
    ∃ (anc : List β) (left kids right : Forest β) (x : β),
      Loc F anc left x kids right ∧ anc.length = tall F := by
  have key : ∀ (G : Forest β) (anc : List β) (l k r : Forest β) (p : β), Loc F anc l p k r →
      (∃ pre, k = pre ++ G) → G ≠ .nil → ∃ anc' left kids right x,
        Loc F anc' left x kids right ∧ anc'.length = anc.length + 1 + tall G := by
    intro G
    induction G with
    | nil => intro _ _ _ _ _ _ _ h; exact absurd rfl h
    | cons y ky ry ihk ihr =>
      intro anc l k r p hl hpre _
      obtain ⟨pre, rfl⟩ := hpre
      have hy := Loc.child hl (left := pre) (x := y) (kids := ky) (right := ry) rfl
      have right : tall ry ≠ 0 → ∃ anc' left kids right x,
          Loc F anc' left x kids right ∧ anc'.length = anc.length + 1 + tall ry := by
        intro hne
        refine ihr anc l _ r p hl ⟨pre ++ single y ky, by simp [Forest.append_assoc, single]⟩ ?_
        rintro rfl; simp [tall] at hne
      cases ky with
      | nil =>
        by_cases h0 : tall ry = 0
        · exact ⟨_, _, _, _, _, hy, by simp [tall, h0]⟩
        · simpa [tall] using right h0
      | cons z kz rz =>
        simp only [tall]
        by_cases hm : tall ry ≤ 1 + tall (.cons z kz rz)
        · obtain ⟨anc', a, b, c, x, h1, h2⟩ := ihk (p :: anc) _ _ _ _ hy ⟨.nil, rfl⟩ (by simp)
          exact ⟨anc', a, b, c, x, h1, by rw [h2]; simp; omega⟩
        · obtain ⟨anc', a, b, c, x, h1, h2⟩ := right (by omega)
          exact ⟨anc', a, b, c, x, h1, by rw [h2]; omega⟩
  have top : ∀ (G : Forest β), (∃ pre, F = pre ++ G) → tall G ≠ 0 → ∃ anc' left kids right x,
        Loc F anc' left x kids right ∧ anc'.length = tall G := by
    intro G
    induction G with
    | nil => intro _ h; simp [tall] at h
    | cons y ky ry _ ihr =>
      intro hpre hne
      obtain ⟨pre, e⟩ := hpre
      have hy := Loc.root (F := F) (left := pre) (x := y) (kids := ky) (right := ry) e
      have right : tall ry ≠ 0 → ∃ anc' left kids right x,
          Loc F anc' left x kids right ∧ anc'.length = tall ry := fun hne =>
        ihr ⟨pre ++ single y ky, by rw [e]; simp [Forest.append_assoc, single]⟩ hne
      cases ky with
      | nil => simp only [tall] at hne ⊢; exact right hne
      | cons z kz rz =>
        simp only [tall]
        by_cases hm : tall ry ≤ 1 + tall (.cons z kz rz)
        · obtain ⟨anc', a, b, c, x, h1, h2⟩ := key _ _ _ _ _ _ hy ⟨.nil, rfl⟩ (by simp)
          exact ⟨anc', a, b, c, x, h1, by rw [h2]; simp; omega⟩
        · obtain ⟨anc', a, b, c, x, h1, h2⟩ := right (by omega)
          exact ⟨anc', a, b, c, x, h1, by rw [h2]; omega⟩
  exact top F ⟨.nil, rfl⟩ h

end Syntree.Calc
