import Verif.Proof.CalcPure

/-! The parser of the calculator, as it runs, follows the parser on lists of tokens. -/

namespace Syntree.Calc

open Forest

variable {ib pw : Nat}

theorem bind_ok {β γ : Type} {x : P β} {f : β → P γ} {p p' : Parser} {a : β}
    (h : x p = .ok (a, p')) : (x >>= f) p = f a p' := by
  show P.bind x f p = _
  simp only [P.bind, h]

theorem pure_ok {β : Type} (a : β) (p : Parser) : (pure a : P β) p = .ok (a, p) := rfl

theorem call_ok {fl : Flavor} {op : Op Syn} {p : Parser} {s' : Sys Syn} {o : Out} (hf : p.fl = fl)
    (h : p.tree.step fl op = (s', .ok o)) :
    call op p = .ok (o, { p with tree := s' }) := by
  simp only [call, hf, h]

/-- The running parser `p` is in the state `s`. -/
structure RP (ib pw : Nat) (source : Text) (p : Parser) (n : Nest Syn) (s : St) : Prop where
  sim : Cli ib pw p.tree n s.lev [] 0
  src : ∃ pre rest ps, p.lexer.At pre rest ∧ Lexed rest ps ∧ s.toks = p.buf.toList ++ ps.map tokenOf
  source : p.lexer.source = source
  buf : ∀ t, p.buf = some t → t.syn ≠ .whitespace ∧ t.syn ≠ .eof
  flavor : p.fl = Flavor.sized ib pw
  room : s.lev.pos + lens s.toks < 2 ^ ib

/-- Enough pointers are left. -/
def Roomy (pw : Nat) (s : St) : Prop := s.pot + 8 < 2 ^ pw - 1

theorem Roomy.size {s : St} (h : Roomy pw s) : 0 + s.lev.cur.size + 8 < 2 ^ pw - 1 := by
  unfold Roomy St.pot at h; omega

/-- Checkpoints up to position `w` are still good. -/
def Keeps (n n' : Nest Syn) (w : Nat) : Prop :=
  ∀ (j : Nat) (m : Mark), n.marks[j]? = some m → m.pos ≤ w → n'.marks[j]? = some m

theorem Keeps.of_eq {n n' : Nest Syn} (h : n'.marks = n.marks) (w : Nat) : Keeps n n' w := by
  intro j m hm _; rw [h]; exact hm

theorem Keeps.trans {n n1 n2 : Nest Syn} {w w1 : Nat} (h : Keeps n n1 w) (h1 : Keeps n1 n2 w1)
    (hw : w ≤ w1) : Keeps n n2 w := fun j m hm hp => h1 j m (h j m hm hp) (by omega)

theorem Ext.width {s s' : St} {G : Forest (Syn × Span)} {u : List Token} (h : Ext s s' G u) :
    s.width ≤ s'.width := by
  unfold St.width; rw [h.cur]; simp

/-- `tree.token` of something that is not longer than what is left. -/
theorem RP.token {source : Text} {p : Parser} {n : Nest Syn} {L : Lev Syn} {ts : List Token}
    (h : RP ib pw source p n ⟨L, ts⟩) (d : Syn) (len : Nat) (hl : L.pos + len + lens ts < 2 ^ ib)
    (hc : 0 + L.cur.size < 2 ^ pw - 1) :
    ∃ o p' n', call (.token d len) p = .ok (o, p') ∧ RP ib pw source p' n' ⟨L.tok d len, ts⟩ ∧
      n'.marks = n.marks ∧ p'.buf = p.buf ∧ p'.lexer = p.lexer := by
  obtain ⟨s', n', e, sm, hm⟩ := h.sim.token d len (by simp only; omega) hc
  exact ⟨_, _, n', call_ok h.flavor e, ⟨sm, h.src, h.source, h.buf, h.flavor, by simpa [Lev.tok] using hl⟩, hm, rfl, rfl⟩

theorem skip_of_head {L : Lev Syn} {t : Token} {ts : List Token} (h : t.syn ≠ .whitespace) :
    (⟨L, t :: ts⟩ : St).skip = ⟨L, t :: ts⟩ := by
  simp only [St.skip, skipWs, if_neg h]

theorem skip_skip (s : St) : s.skip.skip = s.skip := by
  have h := skip_head_ne (s := s)
  cases hs : s.skip with
  | mk L ts =>
    cases ts with
    | nil => rfl
    | cons t ts =>
      rw [hs] at h
      exact skip_of_head h

theorem fillLoop_ok {source : Text} : ∀ (fuel : Nat) {p : Parser} {n : Nest Syn} {s : St},
    RP ib pw source p n s → Roomy pw s → s.toks.length < fuel →
    ∃ p' n', fillLoop fuel p = .ok ((), p') ∧ RP ib pw source p' n' s.skip ∧
      p'.buf = s.skip.toks.head? ∧ n'.marks = n.marks := by
  intro fuel
  induction fuel with
  | zero => intro p n s _ _ h; omega
  | succ fuel ih =>
    intro p n s h hr hf
    obtain ⟨L, ts⟩ := s
    obtain ⟨pre, rest, ps, ha, hl, ht⟩ := h.src
    simp only at ht
    unfold fillLoop
    cases hb : p.buf with
    | some t =>
      have hw := h.buf t hb
      have hts : ts = t :: ps.map tokenOf := by rw [ht, hb]; rfl
      have hsk : (⟨L, ts⟩ : St).skip = ⟨L, ts⟩ := by rw [hts]; exact skip_of_head hw.1
      exact ⟨p, n, rfl, by rw [hsk]; exact h, by rw [hsk, hb, hts]; rfl, rfl⟩
    | none =>
      rw [hb] at ht
      simp only [Option.toList_none, List.nil_append] at ht
      simp only
      cases ps with
      | nil =>
        cases hl
        rw [ha.done]
        simp only [List.map_nil] at ht
        have hsk : (⟨L, ts⟩ : St).skip = ⟨L, ts⟩ := skip_of_nil ht
        refine ⟨p, n, ?_, by rw [hsk]; exact h, by rw [hsk, hb, ht]; rfl, rfl⟩
        simp only [← hb]
      | cons q ps =>
        obtain ⟨l', rest', e, _, a', hs', hl', hne⟩ := ha.next hl
        rw [e]
        simp only [List.map_cons] at ht
        subst ht
        have hkind := hl.kinds q (by simp)
        by_cases hw : (tokenOf q).syn = .whitespace
        · simp only [hw, if_true]
          have h1 : RP ib pw source { p with lexer := l' } n ⟨L, ps.map tokenOf⟩ := by
            refine ⟨h.sim, ⟨_, rest', ps, a', hl', by rw [hb]; rfl⟩, hs'.trans h.source, h.buf, h.flavor, ?_⟩
            have := h.room
            simp only [lens_cons] at this ⊢; omega
          have hroom := h.room
          simp only [lens_cons] at hroom
          have hsz := hr.size
          obtain ⟨o, p2, n2, e2, r2, m2, b2, l2⟩ := h1.token .whitespace (tokenOf q).len
            (by omega) (by simp only at hsz; omega)
          have hr2 : Roomy pw ⟨L.tok .whitespace (tokenOf q).len, ps.map tokenOf⟩ := by
            simp only [Roomy, St.pot, Lev.tok, size_append, Forest.size, List.length_cons] at hr ⊢
            omega
          obtain ⟨p3, n3, e3, r3, b3, m3⟩ := ih r2 hr2 (by simp at hf ⊢; omega)
          have hsk : (⟨L, tokenOf q :: ps.map tokenOf⟩ : St).skip =
              (⟨L.tok .whitespace (tokenOf q).len, ps.map tokenOf⟩ : St).skip := by
            simp only [St.skip, skipWs, hw, if_true]
          refine ⟨p3, n3, ?_, by rw [hsk]; exact r3, by rw [hsk]; exact b3, m3.trans m2⟩
          rw [hb] at e2
          rw [bind_ok e2]; exact e3
        · simp only [if_neg hw]
          have hsk : (⟨L, tokenOf q :: ps.map tokenOf⟩ : St).skip =
              ⟨L, tokenOf q :: ps.map tokenOf⟩ := skip_of_head hw
          refine ⟨_, n, rfl, ?_, by rw [hsk]; rfl, rfl⟩
          rw [hsk]
          refine ⟨h.sim, ⟨_, rest', ps, a', hl', rfl⟩, hs'.trans h.source, ?_, h.flavor, h.room⟩
          intro t ht
          simp only [Option.some.injEq] at ht
          subst ht
          exact ⟨hw, hkind.2.1⟩

theorem RP.toks_le {source : Text} {p : Parser} {n : Nest Syn} {s : St} (h : RP ib pw source p n s) :
    s.toks.length ≤ source.length + 1 := by
  obtain ⟨pre, rest, ps, ha, hl, ht⟩ := h.src
  have h1 := hl.length_le
  have h2 : rest.length ≤ source.length := by
    rw [← h.source, ha.1]; simp
  rw [ht]
  cases hb : p.buf <;> simp <;> omega

/-- With an empty buffer there are at most as many tokens as characters. -/
theorem RP.toks_le' {source : Text} {p : Parser} {n : Nest Syn} {s : St} (h : RP ib pw source p n s)
    (hb : p.buf = none) : s.toks.length ≤ source.length := by
  obtain ⟨pre, rest, ps, ha, hl, ht⟩ := h.src
  have h1 := hl.length_le
  have h2 : rest.length ≤ source.length := by
    rw [← h.source, ha.1]; simp
  rw [ht, hb]
  simp; omega

theorem fill_ok {source : Text} {p : Parser} {n : Nest Syn} {s : St} (h : RP ib pw source p n s)
    (hr : Roomy pw s) : ∃ p' n', fill p = .ok ((), p') ∧ RP ib pw source p' n' s.skip ∧
      p'.buf = s.skip.toks.head? ∧ n'.marks = n.marks := by
  unfold fill
  rw [h.source]
  cases hb : p.buf with
  | none => exact fillLoop_ok _ h hr (by have := h.toks_le' hb; omega)
  | some t =>
    obtain ⟨pre, rest, ps, ha, hl, ht⟩ := h.src
    have hw := h.buf t hb
    obtain ⟨L, ts⟩ := s
    have hts : ts = t :: ps.map tokenOf := by simp only at ht; rw [ht, hb]; rfl
    have hsk : (⟨L, ts⟩ : St).skip = ⟨L, ts⟩ := by rw [hts]; exact skip_of_head hw.1
    refine ⟨p, n, ?_, by rw [hsk]; exact h, by rw [hsk, hb, hts]; rfl, rfl⟩
    unfold fillLoop
    simp only [hb]

theorem peek_ok {source : Text} {p : Parser} {n : Nest Syn} {s : St} (h : RP ib pw source p n s)
    (hr : Roomy pw s) : ∃ p' n', peek p = .ok (s.skip.head, p') ∧ RP ib pw source p' n' s.skip ∧
      p'.buf = s.skip.toks.head? ∧ n'.marks = n.marks := by
  obtain ⟨p', n', e, r, b, m⟩ := fill_ok h hr
  refine ⟨p', n', ?_, r, b, m⟩
  unfold peek
  rw [bind_ok e]
  simp only [b, St.head]
  cases s.skip.toks <;> rfl

theorem step_ok {source : Text} {p : Parser} {n : Nest Syn} {s : St} (h : RP ib pw source p n s)
    (hr : Roomy pw s) : ∃ p' n', step p = .ok (s.skip.head, p') ∧
      RP ib pw source p' n' ⟨s.skip.lev, s.skip.toks.tail⟩ ∧ n'.marks = n.marks := by
  obtain ⟨p', n', e, r, b, m⟩ := peek_ok h hr
  refine ⟨{ p' with buf := none }, n', ?_, ?_, m⟩
  · unfold step
    rw [bind_ok e]
  · obtain ⟨pre, rest, ps, ha, hl, ht⟩ := r.src
    refine ⟨r.sim, ⟨pre, rest, ps, ha, hl, ?_⟩, r.source, by simp, r.flavor, ?_⟩
    · rw [b] at ht
      cases hs : s.skip.toks with
      | nil =>
        rw [hs] at ht
        simpa using ht
      | cons t ts =>
        rw [hs] at ht
        simp only [List.head?_cons, Option.toList_some, List.cons_append, List.nil_append,
          List.cons.injEq, true_and] at ht
        simpa using ht
    · have := r.room
      cases hs : s.skip.toks with
      | nil => rw [hs] at this; simpa using this
      | cons t ts => rw [hs] at this; simp only [lens_cons] at this; simp only [List.tail_cons]; omega

theorem room_head {s : St} {b : Nat} (h : s.lev.pos + lens s.toks < b) :
    s.lev.pos + s.head.len + lens s.toks.tail < b := by
  unfold St.head
  cases hs : s.toks with
  | nil => rw [hs] at h; simpa using h
  | cons t ts => rw [hs] at h; simp only [lens_cons] at h; simp only [List.headD_cons, List.tail_cons]; omega

theorem Roomy.skip {s : St} (h : Roomy pw s) : Roomy pw s.skip := by
  have := skip_pot s
  unfold Roomy at *; omega

/-- `step` and `tree.token`. -/
theorem stepToken_ok {source : Text} {p : Parser} {n : Nest Syn} {s : St} (h : RP ib pw source p n s)
    (hr : Roomy pw s) :
    ∃ p1 o p' n', step p = .ok (s.skip.head, p1) ∧
      call (.token s.skip.head.syn s.skip.head.len) p1 = .ok (o, p') ∧
      RP ib pw source p' n' s.skip.take ∧ n'.marks = n.marks := by
  obtain ⟨p1, n1, e1, r1, m1⟩ := step_ok h hr
  have hroom : s.skip.lev.pos + lens s.skip.toks < 2 ^ ib := by
    obtain ⟨p', n', _, r, _⟩ := peek_ok h hr
    exact r.room
  have hsz := hr.skip.size
  obtain ⟨o, p2, n2, e2, r2, m2, _⟩ := r1.token s.skip.head.syn s.skip.head.len
    (room_head hroom) (by omega)
  exact ⟨p1, o, p2, n2, e1, e2, r2, m2.trans m1⟩

theorem token_ok {source : Text} {p : Parser} {n : Nest Syn} {s : St} (h : RP ib pw source p n s)
    (hr : Roomy pw s) : ∃ p' n', token p = .ok ((), p') ∧ RP ib pw source p' n' s.skip.take ∧
      n'.marks = n.marks := by
  obtain ⟨p1, o, p2, n2, e1, e2, r2, m2⟩ := stepToken_ok h hr
  refine ⟨p2, n2, ?_, r2, m2⟩
  unfold token
  rw [bind_ok e1, bind_ok e2]; rfl

theorem eat_ok {source : Text} {p : Parser} {n : Nest Syn} {s : St} (h : RP ib pw source p n s)
    (hr : Roomy pw s) (what : Syn) :
    ∃ p' n' s', eat what p = .ok (decide (s.skip.head.syn = what), p') ∧ RP ib pw source p' n' s' ∧
      n'.marks = n.marks ∧ s' = if s.skip.head.syn = what then s.skip.take else s.skip := by
  obtain ⟨p1, n1, e1, r1, b1, m1⟩ := peek_ok h hr
  unfold eat
  rw [bind_ok e1]
  by_cases hw : s.skip.head.syn = what
  · obtain ⟨p2, o, p3, n3, e2, e3, r3, m3⟩ := stepToken_ok r1 hr.skip
    rw [skip_skip] at e2 e3 r3
    refine ⟨p3, n3, _, ?_, r3, m3.trans m1, by rw [if_pos hw]⟩
    simp only [hw, ne_eq, not_true, if_false, decide_true]
    rw [bind_ok e2, bind_ok e3]; rfl
  · refine ⟨p1, n1, _, ?_, r1, m1, by rw [if_neg hw]⟩
    simp [hw, pure_ok]

theorem bump_ok {source : Text} {p : Parser} {n : Nest Syn} {s : St} (h : RP ib pw source p n s)
    (hr : Roomy pw s) (what : Syn) :
    ∃ p' n', bump what p = .ok ((), p') ∧ RP ib pw source p' n' (s.skip.bump what) ∧
      n'.marks = n.marks := by
  obtain ⟨p1, n1, e1, r1, m1⟩ := step_ok h hr
  have hroom : s.skip.lev.pos + lens s.skip.toks < 2 ^ ib := by
    obtain ⟨p', n', _, r, _⟩ := peek_ok h hr
    exact r.room
  have hroom' := room_head hroom
  have hsz := hr.skip.size
  obtain ⟨t2, n2, e2, s2, m2⟩ := r1.sim.open what (by simp only; omega)
  obtain ⟨t3, n3, e3, s3, m3⟩ := s2.token s.skip.head.syn s.skip.head.len
    (by simp only; omega) (by simp only [Forest.size]; omega)
  have hn1 := r1.sim.size
  simp only at hn1
  obtain ⟨t4, n4, e4, s4, m4⟩ := s3.close (by simp only [hn1]; omega)
  have hcont : n1.cur.content = s.skip.lev.cur := r1.sim.cur
  refine ⟨{ p1 with tree := t4 }, n4, ?_, ⟨?_, r1.src, r1.source, r1.buf, r1.flavor, ?_⟩,
    m4.trans (m3.trans (m2.trans m1))⟩
  · unfold bump
    rw [bind_ok e1, bind_ok (call_ok r1.flavor e2),
      bind_ok (call_ok (p := { p1 with tree := t2 }) r1.flavor e3),
      bind_ok (call_ok (p := { p1 with tree := t3 }) r1.flavor e4)]
    rfl
  · have hb : 0 + s.skip.lev.cur.size + 1 - n1.cur.size - 1 = 0 := by omega
    simp only [hcont, hb] at s4
    exact s4
  · simp only [St.bump]; exact hroom'

theorem checkpoint_ok {source : Text} {p : Parser} {n : Nest Syn} {s : St} (h : RP ib pw source p n s)
    (hr : Roomy pw s) : ∃ p' n', checkpoint p = .ok (n.marks.length, p') ∧ RP ib pw source p' n' s ∧
      n'.marks = n.marks ++ [⟨none, s.width, true⟩] ∧ p'.buf = p.buf := by
  have hsz := hr.size
  obtain ⟨t, n', e, sm, hm⟩ := h.sim.checkpoint (by omega)
  refine ⟨{ p with tree := t }, n', ?_, ⟨sm, h.src, h.source, h.buf, h.flavor, h.room⟩, hm, rfl⟩
  unfold checkpoint
  rw [call_ok h.flavor e]

theorem closeAt_ok {source : Text} {p : Parser} {n : Nest Syn} {s : St} (h : RP ib pw source p n s)
    (hr : Roomy pw s) (k w : Nat) (d : Syn) (hm : n.marks[k]? = some ⟨none, w, true⟩) :
    ∃ o p' n', call (.closeAt k d) p = .ok (o, p') ∧ RP ib pw source p' n' (s.wrap w d) ∧
      Keeps n n' w := by
  have hsz := hr.size
  obtain ⟨t, n', e, sm, _, hk⟩ := h.sim.closeAt k w d (by omega) hm
  refine ⟨_, _, n', call_ok h.flavor e, ⟨sm, h.src, h.source, h.buf, h.flavor, ?_⟩, hk⟩
  have := h.room
  simpa [St.wrap, Lev.wrap_pos] using this

theorem marks_last (l : List Mark) (m : Mark) : (l ++ [m])[l.length]? = some m := by simp

theorem Keeps.snoc {n n' : Nest Syn} {m : Mark} (h : n'.marks = n.marks ++ [m]) (w : Nat) :
    Keeps n n' w := by
  intro j x hj _
  rw [h, List.getElem?_append_left]
  · exact hj
  · exact (List.getElem?_eq_some_iff.1 hj).1

theorem Roomy.le {s s' : St} (h : Roomy pw s) (hp : s'.pot ≤ s.pot) : Roomy pw s' := by
  unfold Roomy at *; omega

theorem width_take {s : St} : s.width ≤ s.take.width := by
  simp [St.width, St.take, Lev.tok]

theorem width_bump {s : St} (d : Syn) : s.width ≤ (s.bump d).width := by
  simp [St.width, St.bump]

theorem width_skip {s : St} : s.width ≤ s.skip.width := by
  obtain ⟨G, u, h, _⟩ := Ext.skip s; exact h.width

/-- The loop and the end of `expr`. -/
theorem finish_ok {source : Text} {fuel min : Nat} {c w : Nat} {p : Parser} {n : Nest Syn}
    {s s' : St} (h : RP ib pw source p n s) (hr : Roomy pw s) (hw : w ≤ s.width)
    (hm : n.marks[c]? = some ⟨none, w, true⟩)
    (hf : finish w (ploop fuel min false s) = some s')
    (ih : ∀ (o o' : Bool) (s' : St), ploop fuel min o s = some (o', s') →
      ∃ p' n', exprLoop fuel min o p = .ok (o', p') ∧ RP ib pw source p' n' s' ∧ Keeps n n' s.width) :
    ∃ p' n', (do
      let operation ← exprLoop fuel min false
      if operation then do
        let _ ← call (.closeAt c .operation)
        pure ()
      else pure () : P Unit) p = .ok ((), p') ∧ RP ib pw source p' n' s' ∧ Keeps n n' w := by
  obtain ⟨o, s2, e, rfl⟩ := finish_some hf
  obtain ⟨p2, n2, e2, r2, k2⟩ := ih _ _ _ e
  have hp := (pexpr_pot fuel).2 _ _ _ _ _ e
  rw [bind_ok e2]
  cases o with
  | false =>
    exact ⟨p2, n2, rfl, r2, fun j m hj hp => k2 j m hj (by omega)⟩
  | true =>
    obtain ⟨o3, p3, n3, e3, r3, k3⟩ := closeAt_ok r2 (hr.le hp) c w .operation (k2 _ _ hm hw)
    refine ⟨p3, n3, ?_, r3, ?_⟩
    · simp only [if_true]
      rw [bind_ok e3]; rfl
    · exact fun j m hj hp => k3 j m (k2 j m hj (by omega)) hp

theorem expr_ok {source : Text} (fuel : Nat) :
    (∀ (min : Nat) (p : Parser) (n : Nest Syn) (s s' : St), RP ib pw source p n s → Roomy pw s →
      pexpr fuel min s = some s' →
      ∃ p' n', expr fuel min p = .ok ((), p') ∧ RP ib pw source p' n' s' ∧ Keeps n n' s.width) ∧
    (∀ (min : Nat) (o o' : Bool) (p : Parser) (n : Nest Syn) (s s' : St), RP ib pw source p n s →
      Roomy pw s → ploop fuel min o s = some (o', s') →
      ∃ p' n', exprLoop fuel min o p = .ok (o', p') ∧ RP ib pw source p' n' s' ∧
        Keeps n n' s.width) := by
  induction fuel with
  | zero => exact ⟨by simp [pexpr], by simp [ploop]⟩
  | succ fuel ih =>
    obtain ⟨ih1, ih2⟩ := ih
    constructor
    · intro min p n s s' h hr he
      obtain ⟨p1, n1, e1, r1, b1, m1⟩ := peek_ok h hr
      have hr1 := hr.skip
      obtain ⟨p2, n2, e2, r2, m2, b2⟩ := checkpoint_ok r1 hr1
      have hc2 : n2.marks[n1.marks.length]? = some ⟨none, s.skip.width, true⟩ := by
        rw [m2]; exact marks_last _ _
      have k2 : Keeps n n2 s.skip.width := (Keeps.of_eq m1 _).trans (Keeps.snoc m2 _) (Nat.le_refl _)
      have hws := width_skip (s := s)
      have done : ∀ {p' : Parser} {n' : Nest Syn}, Keeps n2 n' s.skip.width → Keeps n n' s.width :=
        fun k => fun j m hj hp => k j m (k2 j m hj (by omega)) (by omega)
      rw [pexpr] at he
      rw [expr, bind_ok e1, bind_ok e2]
      by_cases ho : s.skip.head.syn = .openParen
      · rw [if_pos ho] at he
        simp only [ho]
        have hne := head_toks ho (by simp)
        have t1 := take_pot hne
        obtain ⟨p3, n3, e3, r3, m3⟩ := token_ok r2 hr1
        rw [skip_skip] at r3
        have hr3 : Roomy pw s.skip.take := hr1.le (by omega)
        obtain ⟨p4, n4, e4, r4, m4, b4⟩ := checkpoint_ok r3 hr3
        have hc4 : n4.marks[n3.marks.length]? = some ⟨none, s.skip.take.width, true⟩ := by
          rw [m4]; exact marks_last _ _
        cases he5 : pexpr fuel 0 s.skip.take with
        | none => rw [he5] at he; simp at he
        | some s5 =>
          rw [he5] at he
          simp only at he
          obtain ⟨p5, n5, e5, r5, k5⟩ := ih1 _ _ _ _ _ r4 hr3 he5
          have pt5 := ((pexpr_pot fuel).1 _ _ _ he5).1
          have hr5 : Roomy pw s5 := hr1.le (by omega)
          obtain ⟨o6, p6, n6, e6, r6, k6⟩ := closeAt_ok r5 hr5 n3.marks.length _ .group
            (k5 _ _ hc4 (Nat.le_refl _))
          have hr6 : Roomy pw (s5.wrap s.skip.take.width .group) :=
            hr1.le (by rw [wrap_pot]; omega)
          obtain ⟨p7, n7, s7, e7, r7, m7, hs7⟩ := eat_ok r6 hr6 .closeParen
          -- all checkpoints up to the start of this expression are still good
          have hwt := width_take (s := s.skip)
          have k7 : Keeps n2 n7 s.skip.width := by
            intro j m hj hp
            have a3 : n3.marks[j]? = some m := by rw [m3]; exact hj
            have a4 := Keeps.snoc m4 s.skip.width j m a3 hp
            have a5 := k5 j m a4 (by omega)
            have a6 := k6 j m a5 (by omega)
            rw [m7]; exact a6
          have wid : s.skip.take.width ≤ (s5.wrap s.skip.take.width .group).width := by
            obtain ⟨G, u, hx⟩ := (pexpr_ext fuel).1 _ _ _ he5
            exact (hx.wrap .group).width
          split at he
          · rename_i hc
            rw [if_pos hc] at hs7
            have pt7 := take_pot (head_toks hc (by simp))
            have sk7 := skip_pot (s5.wrap s.skip.take.width .group)
            rw [wrap_pot] at sk7
            have hr7 : Roomy pw s7 := hr1.le (by rw [hs7]; omega)
            have w7 : s.skip.width ≤ s7.width := by
              rw [hs7]
              have h1 := width_skip (s := s5.wrap s.skip.take.width .group)
              have h2 := width_take (s := (s5.wrap s.skip.take.width .group).skip)
              omega
            rw [← hs7] at he
            obtain ⟨p8, n8, e8, r8, k8⟩ := finish_ok r7 hr7 w7 (k7 _ _ hc2 (Nat.le_refl _)) he
              (fun o o' s' hl => ih2 _ _ _ _ _ _ _ r7 hr7 hl)
            refine ⟨p8, n8, ?_, r8, done (p' := p8) (k7.trans k8 (Nat.le_refl _))⟩
            rw [hc] at e7
            rw [bind_ok (p' := p7) (a := true)]
            · exact e8
            · rw [bind_ok e3, bind_ok e4, bind_ok e5, bind_ok e6, bind_ok e7]; rfl
          · rename_i hc
            rw [if_neg hc] at hs7
            have sk7 := skip_pot (s5.wrap s.skip.take.width .group)
            rw [wrap_pot] at sk7
            have hr7 : Roomy pw s7 := hr1.le (by rw [hs7]; omega)
            obtain ⟨p8, n8, e8, r8, m8⟩ := bump_ok r7 hr7 .error
            simp only [Option.some.injEq] at he
            refine ⟨p8, n8, ?_, ?_, done (p' := p8) (k7.trans (Keeps.of_eq m8 _) (Nat.le_refl _))⟩
            · have hd : decide ((s5.wrap s.skip.take.width .group).skip.head.syn = .closeParen) =
                  false := by simpa using hc
              rw [hd] at e7
              rw [bind_ok (p' := p8) (a := false)]
              · rfl
              · rw [bind_ok e3, bind_ok e4, bind_ok e5, bind_ok e6, bind_ok e7]
                simp only [Bool.not_false, if_true]
                rw [bind_ok e8]; rfl
            · rw [← he, ← skip_skip (s5.wrap s.skip.take.width .group), ← hs7]; exact r8
      · rw [if_neg ho] at he
        by_cases hnum : s.skip.head.syn = .number
        · rw [if_pos hnum] at he
          obtain ⟨p3, n3, e3, r3, m3⟩ := bump_ok r2 hr1 .number
          rw [skip_skip] at r3
          have pt3 := (bump_pot s.skip .number).2 (head_toks hnum (by simp))
          have hr3 : Roomy pw (s.skip.bump .number) := hr1.le (by omega)
          obtain ⟨p8, n8, e8, r8, k8⟩ := finish_ok r3 hr3 (width_bump _)
            (by rw [m3]; exact hc2) he (fun o o' s' hl => ih2 _ _ _ _ _ _ _ r3 hr3 hl)
          refine ⟨p8, n8, ?_, r8, done (p' := p8) ((Keeps.of_eq m3 _).trans k8 (Nat.le_refl _))⟩
          simp only [hnum]
          rw [bind_ok (p' := p3) (a := true)]
          · exact e8
          · rw [bind_ok e3]; rfl
        · rw [if_neg hnum] at he
          obtain ⟨p3, n3, e3, r3, m3⟩ := bump_ok r2 hr1 .error
          rw [skip_skip] at r3
          simp only [Option.some.injEq] at he
          refine ⟨p3, n3, ?_, by rw [← he]; exact r3, done (p' := p3) (Keeps.of_eq m3 _)⟩
          have hx : (do bump .error; pure false : P Bool) p2 = .ok (false, p3) := by
            rw [bind_ok e3]; rfl
          rw [bind_ok (p' := p3) (a := false)]
          · rfl
          · revert ho hnum
            cases s.skip.head.syn <;> intro ho hnum <;> first | exact hx | exact absurd rfl ho |
              exact absurd rfl hnum
    · intro min o o' p n s s' h hr he
      obtain ⟨p1, n1, e1, r1, b1, m1⟩ := peek_ok h hr
      have hr1 := hr.skip
      have hws := width_skip (s := s)
      rw [ploop] at he
      rw [exprLoop, bind_ok e1]
      cases hop : op s.skip.head.syn with
      | none =>
        rw [hop] at he
        simp only [Option.some.injEq, Prod.mk.injEq] at he
        refine ⟨p1, n1, ?_, by rw [← he.2]; exact r1, Keeps.of_eq m1 _⟩
        simp only [pure_ok, he.1]
      | some lr =>
        obtain ⟨left, right⟩ := lr
        rw [hop] at he
        simp only at he
        split at he
        · rename_i hmin
          cases he3 : pexpr fuel right (s.skip.bump .operator) with
          | none => rw [he3] at he; simp at he
          | some s3 =>
            rw [he3] at he
            simp only at he
            obtain ⟨p2, n2, e2, r2, m2⟩ := bump_ok r1 hr1 .operator
            rw [skip_skip] at r2
            have pt2 := (bump_pot s.skip .operator).2 (op_toks hop)
            have hr2 : Roomy pw (s.skip.bump .operator) := hr1.le (by omega)
            obtain ⟨p3, n3, e3, r3, k3⟩ := ih1 _ _ _ _ _ r2 hr2 he3
            have pt3 := ((pexpr_pot fuel).1 _ _ _ he3).1
            have hr3 : Roomy pw s3 := hr1.le (by omega)
            obtain ⟨p4, n4, e4, r4, k4⟩ := ih2 _ _ _ _ _ _ _ r3 hr3 he
            obtain ⟨G, u, hx⟩ := (pexpr_ext fuel).1 _ _ _ he3
            have hw3 := hx.width
            have hwb := width_bump (s := s.skip) .operator
            refine ⟨p4, n4, ?_, r4, ?_⟩
            · simp only [hmin, if_true]
              rw [bind_ok e2, bind_ok e3, e4]
            · intro j m hj hp
              exact k4 j m (k3 j m (by rw [m2, m1]; exact hj) (by omega)) (by omega)
        · rename_i hmin
          simp only [Option.some.injEq, Prod.mk.injEq] at he
          refine ⟨p1, n1, ?_, by rw [← he.2]; exact r1, Keeps.of_eq m1 _⟩
          simp only [if_neg hmin, pure_ok, he.1]

theorem adv_stop {any : List Syn} {fuel : Nat} {p p1 : Parser} {t : Token}
    (e1 : peek p = .ok (t, p1)) (hc : t.syn = .eof ∨ t.syn ∈ any) :
    advanceLoop any (fuel + 1) p = .ok ((), p1) := by
  unfold advanceLoop
  rw [bind_ok e1, if_pos hc]; rfl

theorem adv_next {any : List Syn} {fuel : Nat} {p p1 p2 p3 : Parser} {t t' : Token} {o : Out}
    (e1 : peek p = .ok (t, p1)) (hc : ¬ (t.syn = .eof ∨ t.syn ∈ any))
    (e2 : call (.token t.syn t.len) p1 = .ok (o, p2)) (e3 : step p2 = .ok (t', p3)) :
    advanceLoop any (fuel + 1) p = advanceLoop any fuel p3 := by
  rw [advanceLoop, bind_ok e1, if_neg hc, bind_ok e2, bind_ok e3]

/-- `advance_until` a number. -/
theorem advance_ok {source : Text} : ∀ (fuel : Nat) (p : Parser) (n : Nest Syn) (s : St),
    RP ib pw source p n s → Roomy pw s → s.toks.length < fuel →
    ∃ p' n', advanceLoop [.number] fuel p = .ok ((), p') ∧ RP ib pw source p' n' (padv s.lev s.toks) ∧
      n'.marks = n.marks := by
  have skip_padv : ∀ (ts : List Token) (L : Lev Syn),
      padv (skipWs L ts).lev (skipWs L ts).toks = padv L ts := by
    intro ts
    induction ts with
    | nil => intro L; rfl
    | cons t ts ih =>
      intro L
      unfold skipWs
      split
      · rename_i hw
        rw [ih, padv, hw]; simp
      · rfl
  intro fuel
  induction fuel with
  | zero => intro p n s _ _ h; omega
  | succ fuel ih =>
    intro p n s h hr hf
    obtain ⟨p1, n1, e1, r1, b1, m1⟩ := peek_ok h hr
    have hr1 := hr.skip
    have hl1 := skip_length s
    have hpad : padv s.lev s.toks = padv s.skip.lev s.skip.toks := (skip_padv _ _).symm
    rw [hpad]
    cases hs : s.skip with
    | mk L ts =>
      rw [hs] at r1 b1 hr1 hl1 e1
      simp only at b1 hl1
      cases ts with
      | nil =>
        exact ⟨p1, n1, adv_stop e1 (.inl rfl), r1, m1⟩
      | cons t ts =>
        have e1 : peek p = .ok (t, p1) := e1
        have hkind := r1.buf t b1
        by_cases hn : t.syn = .number
        · refine ⟨p1, n1, ?_, ?_, m1⟩
          · exact adv_stop e1 (.inr (by simp [hn]))
          · simp only [padv, hn, if_true]; exact r1
        · have hsz := hr1.size
          have hroom := r1.room
          simp only [lens_cons] at hroom hsz
          obtain ⟨t2, n2, e2, s2, m2⟩ := r1.sim.token t.syn t.len (by simp only; omega)
            (by simp only; omega)
          have e2' := call_ok (p := p1) r1.flavor e2
          have e3 : step { p1 with tree := t2 } = .ok (t, { p1 with tree := t2, buf := none }) := by
            unfold step peek
            have hfl : ∀ k, fillLoop (k + 1) { p1 with tree := t2, buf := some t } =
                .ok ((), { p1 with tree := t2, buf := some t }) := by intro k; simp [fillLoop]
            have hp1 : ({ p1 with tree := t2 } : Parser) = { p1 with tree := t2, buf := some t } := by
              rw [← List.head?_cons (a := t) (l := ts), ← b1]
            rw [hp1]
            rw [bind_ok (p' := { p1 with tree := t2, buf := some t }) (a := t)]
            rw [bind_ok (p' := { p1 with tree := t2, buf := some t }) (a := ())]
            · rfl
            · exact hfl _
          have r3 : RP ib pw source { p1 with tree := t2, buf := none } n2 ⟨L.tok t.syn t.len, ts⟩ := by
            obtain ⟨pre, rest, ps, ha, hl, ht⟩ := r1.src
            refine ⟨s2, ⟨pre, rest, ps, ha, hl, ?_⟩, r1.source, by simp, r1.flavor, by
              simp only [Lev.tok]; omega⟩
            rw [b1] at ht
            simpa using ht
          have hr3 : Roomy pw ⟨L.tok t.syn t.len, ts⟩ := by
            simp only [Roomy, St.pot, Lev.tok, size_append, Forest.size, List.length_cons] at hr1 ⊢
            omega
          obtain ⟨p4, n4, e4, r4, m4⟩ := ih _ _ _ r3 hr3 (by
            simp only [List.length_cons] at hl1; simp only; omega)
          refine ⟨p4, n4, ?_, ?_, m4.trans (m2.trans m1)⟩
          · have hcond : ¬ (t.syn = .eof ∨ t.syn ∈ [Syn.number]) := by
              rw [List.mem_singleton]; exact fun h => h.elim hkind.2 hn
            rw [adv_next e1 hcond e2' e3]; exact e4
          · simp only [padv, hn, if_false]; exact r4

theorem isEof_ok {source : Text} {p : Parser} {n : Nest Syn} {s : St} (h : RP ib pw source p n s)
    (hr : Roomy pw s) : ∃ p' n', isEof p = .ok (decide (s.skip.toks = []), p') ∧
      RP ib pw source p' n' s.skip ∧ n'.marks = n.marks := by
  obtain ⟨p1, n1, e1, r1, b1, m1⟩ := peek_ok h hr
  refine ⟨p1, n1, ?_, r1, m1⟩
  unfold isEof
  rw [bind_ok e1, pure_ok]
  congr 2
  unfold St.head
  cases hs : s.skip.toks with
  | nil => rfl
  | cons t ts =>
    rw [hs] at b1
    have := (r1.buf t b1).2
    simp [this]

/-- The root loop. -/
theorem root_ok {source : Text} : ∀ (fuel : Nat) (p : Parser) (n : Nest Syn) (s s' : St),
    RP ib pw source p n s → Roomy pw s → proot (2 * source.length + 4) fuel s = some s' →
    ∃ p' n', rootLoop fuel p = .ok ((), p') ∧ RP ib pw source p' n' s' := by
  intro fuel
  induction fuel with
  | zero => intro p n s s' _ _ h; simp [proot] at h
  | succ fuel ih =>
    intro p n s s' h hr he
    rw [proot] at he
    cases he1 : pexpr (2 * source.length + 4) 0 s with
    | none => rw [he1] at he; simp at he
    | some s1 =>
      rw [he1] at he
      simp only at he
      obtain ⟨p1, n1, e1, r1, k1⟩ := (expr_ok _).1 _ _ _ _ _ h hr he1
      have hfu : exprTop p = .ok ((), p1) := by
        simp only [exprTop, fuelFor, h.source]; exact e1
      obtain ⟨pt1, pt1'⟩ := (pexpr_pot _).1 _ _ _ he1
      by_cases hn : s.skip.toks = []
      · -- the source was at its end
        have hn1 := pexpr_nil he1 hn
        rw [skip_of_nil hn1, if_pos hn1] at he
        simp only [Option.some.injEq] at he
        -- `is_eof` does nothing
        have hbuf : p1.buf = none ∧ ∃ pre, p1.lexer.At pre [] := by
          obtain ⟨pre, rest, ps, ha, hl, ht⟩ := r1.src
          rw [hn1] at ht
          have hx := List.append_eq_nil_iff.1 ht.symm
          have hps : ps = [] := by simpa using hx.2
          subst hps
          cases hl
          refine ⟨?_, pre, ha⟩
          cases hb : p1.buf with
          | none => rfl
          | some t => rw [hb] at hx; simp at hx
        obtain ⟨hb, pre, ha⟩ := hbuf
        have e2 : isEof p1 = .ok (true, p1) := by
          unfold isEof
          rw [bind_ok (p' := p1) (a := ⟨0, .eof⟩)]
          · rfl
          · unfold peek
            rw [bind_ok (p' := p1) (a := ())]
            · simp [hb]
            · unfold fill fillLoop
              simp only [hb, ha.done]
              cases p1; simp_all
        refine ⟨p1, n1, ?_, by rw [← he]; exact r1⟩
        unfold rootLoop
        rw [bind_ok hfu, bind_ok e2]; rfl
      · have pt := pt1' hn
        have hr1 : Roomy pw s1 := hr.le (by omega)
        obtain ⟨p2, n2, e2, r2, m2⟩ := isEof_ok r1 hr1
        have hr2 := hr1.skip
        split at he
        · rename_i hd
          simp only [Option.some.injEq] at he
          refine ⟨p2, n2, ?_, by rw [← he]; exact r2⟩
          rw [hd] at e2
          unfold rootLoop
          rw [bind_ok hfu, bind_ok e2]; rfl
        · rename_i hd
          have hdf : decide (s1.skip.toks = []) = false := by simpa using hd
          rw [hdf] at e2
          obtain ⟨p3, n3, e3, r3, m3, b3⟩ := checkpoint_ok r2 hr2
          have hlen := r3.toks_le
          obtain ⟨p4, n4, e4, r4, m4⟩ := advance_ok (source.length + 2) p3 n3 s1.skip r3 hr2
            (by omega)
          have pt4 := padv_pot s1.skip.lev s1.skip.toks
          have sk := skip_pot s1
          have hpe : (⟨s1.skip.lev, s1.skip.toks⟩ : St).pot = s1.skip.pot := rfl
          have hr4 : Roomy pw (padv s1.skip.lev s1.skip.toks) := hr.le (by omega)
          obtain ⟨o5, p5, n5, e5, r5, k5⟩ := closeAt_ok r4 hr4 n2.marks.length s1.skip.width .error
            (by rw [m4, m3]; exact marks_last _ _)
          have hr5 : Roomy pw ((padv s1.skip.lev s1.skip.toks).wrap s1.skip.width .error) :=
            hr.le (by rw [wrap_pot]; omega)
          obtain ⟨p6, n6, e6, r6⟩ := ih _ _ _ _ r5 hr5 he
          refine ⟨p6, n6, ?_, r6⟩
          have e4' : advanceUntil [.number] p3 = .ok ((), p4) := by
            unfold advanceUntil
            rw [r3.source]; exact e4
          unfold rootLoop
          rw [bind_ok hfu, bind_ok e2]
          simp only [Bool.false_eq_true, if_false]
          rw [bind_ok e3, bind_ok e4', bind_ok e5]; exact e6

/-- The parser with a builder of any flavor. -/
def Parser.newIn (fl : Flavor) (source : Text) : Parser := { Parser.new source with fl := fl }

/-- Parsing succeeds if there is enough room, and the tree is the one of `proot`. -/
theorem root_in (source : Text) (hb : Text.bytes source < 2 ^ ib)
    (hpw : 16 * Text.bytes source + 100 < 2 ^ pw) :
    ∃ ps, Lexed source ps ∧ ∃ s' p t ops F,
      proot (2 * source.length + 4) (source.length + 1) ⟨⟨.nil, 0⟩, ps.map tokenOf⟩ = some s' ∧
      root (Parser.newIn (Flavor.sized ib pw) source) = .ok ((), p) ∧ p.tree.b.build = .ok t ∧
      (Clean (Flavor.sized ib pw) ops ∧ Built (Flavor.sized ib pw) ops t F) ∧ F.content = s'.lev.cur ∧
      t.span = ⟨0, Text.bytes source⟩ ∧
      ∃ G, Ext ⟨⟨.nil, 0⟩, ps.map tokenOf⟩ s' G (ps.map tokenOf) ∧ s'.toks = [] := by
  obtain ⟨ps, hl⟩ := Lexed.total source
  have hlen := hl.length_le
  have hby := hl.bytes
  have hlb := length_le_bytes source
  refine ⟨ps, hl, ?_⟩
  have r0 : RP ib pw source (Parser.newIn (Flavor.sized ib pw) source) Nest.init
      ⟨⟨.nil, 0⟩, ps.map tokenOf⟩ := by
    refine ⟨Cli.init, ⟨[], source, ps, Lexer.At.new source, hl, rfl⟩, rfl,
      by simp [Parser.new, Parser.newIn], rfl, ?_⟩
    show 0 + lens _ < _
    unfold lens
    rw [← hby]; omega
  have hr : Roomy pw ⟨⟨.nil, 0⟩, ps.map tokenOf⟩ := by
    simp only [Roomy, St.pot, Forest.size, List.length_map]; omega
  obtain ⟨s', G, u, e, x, hn, _⟩ := proot_total (F := 2 * source.length + 4) (source.length + 1)
    ⟨⟨.nil, 0⟩, ps.map tokenOf⟩ (by simp only [List.length_map]; omega)
    (by simp only [List.length_map]; omega)
  obtain ⟨p', n', e', r'⟩ := root_ok _ _ _ _ _ r0 hr e
  have hu : u = ps.map tokenOf := by
    have := x.toks
    rw [hn, List.append_nil] at this
    exact this.symm
  subst hu
  have hst : n'.stack = [] := by
    have := r'.sim.stack
    cases hs : n'.stack with
    | nil => rfl
    | cons y ys => rw [hs] at this; exact this.elim
  obtain ⟨ops, t, hcl, hb, hbt, hsp⟩ := r'.sim.logged.built hst
  refine ⟨s', p', t, ops, n'.cur, e, ?_, hb, ⟨hcl, hbt⟩, r'.sim.cur, ?_, G, x, hn⟩
  · unfold root
    have : (Parser.newIn (Flavor.sized ib pw) source).lexer.source = source := rfl
    rw [this]; exact e'
  · rw [hsp, r'.sim.stop, x.pos, hby]
    simp [lens]

/-- Parsing succeeds, and the tree is the one of `proot`. -/
theorem parse_ok (source : Text) (hb : Text.bytes source < 2 ^ 32) :
    ∃ ps, Lexed source ps ∧ ∃ s' t ops F,
      proot (2 * source.length + 4) (source.length + 1) ⟨⟨.nil, 0⟩, ps.map tokenOf⟩ = some s' ∧
      parse source = .ok t ∧ (Clean Flavor.default ops ∧ Built Flavor.default ops t F) ∧ F.content = s'.lev.cur ∧
      t.span = ⟨0, Text.bytes source⟩ ∧
      ∃ G, Ext ⟨⟨.nil, 0⟩, ps.map tokenOf⟩ s' G (ps.map tokenOf) ∧ s'.toks = [] := by
  obtain ⟨ps, hl, s', p, t, ops, F, h1, h2, h3, h4, h5⟩ :=
    root_in (ib := 32) (pw := 64) source hb (by omega)
  refine ⟨ps, hl, s', t, ops, F, h1, ?_, h4, h5⟩
  have h2' : root (Parser.new source) = .ok ((), p) := h2
  simp only [parse, h2', h3]

end Syntree.Calc
