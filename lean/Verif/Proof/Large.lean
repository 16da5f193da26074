import Verif.Proof.WideParse
import Verif.Proof.Narrow

/-!
The example programs on texts of any size.
-/

namespace Syntree

open Forest

theorem lt_two_pow_add (n k : Nat) : n < 2 ^ (n + k) := by
  have := Nat.lt_two_pow_self (n := n)
  have := Nat.pow_le_pow_right (n := 2) (by omega) (Nat.le_add_right n k)
  omega

namespace Calc

/-- A text that does not fit into the index. -/
theorem parse_large {source : Text} (hb : 2 ^ 32 ≤ Text.bytes source) :
    parse source = .error .overflow := by
  obtain ⟨ps, hl, s', p, t, ops, F, _, h2, h3, ⟨hcl, hbt⟩, _, hsp, _⟩ :=
    root_in (ib := Text.bytes source + 32) (pw := 16 * Text.bytes source + 164) source
      (lt_two_pow_add _ _)
      (by have := lt_two_pow_add (16 * Text.bytes source + 100) 64; simpa [Nat.add_assoc] using this)
  have w : Wider Flavor.default (Flavor.sized (Text.bytes source + 32)
      (16 * Text.bytes source + 164)) 32 (Text.bytes source + 32) :=
    Wider.sized (by omega) (by omega)
  have hcur : view.at p = Text.bytes source := by
    have hi := (Calc.F.root w).mono _ () p (by show CurInv Builder.new; exact CurInv.new) h2
    have hs := hi.1.stop
    have ht : p.tree.b.tree = t := by
      unfold Builder.build at h3
      split at h3
      · simp at h3
      · exact Except.ok.inj h3
    have : (view.sys p).b.tree.span = ⟨0, Text.bytes source⟩ := by
      show p.tree.b.tree.span = _
      rw [ht, hsp]
    rw [this] at hs
    exact (Span.mk.inj hs).2.symm
  rcases (Calc.F.root w).start (p := Parser.new source) rfl rfl with
    ⟨x, p', e1, e2, e3⟩ | ⟨e, e1, e2⟩ | ⟨e1, _⟩
  · have : (Except.ok ((), p) : Except Err (Unit × Parser)) = .ok (x, view.setFl p' _) := h2.symm.trans e2
    obtain ⟨_, rfl⟩ := Prod.mk.inj (Except.ok.inj this)
    rw [View.at_setFl] at hcur
    omega
  · have : (Except.ok ((), p) : Except Err (Unit × Parser)) = .error e := h2.symm.trans e2
    simp at this
  · simp only [parse, e1]

end Calc

namespace Math

theorem parse_error {source : Text} {e : Err}
    (h : parseRoot (Parser.newIn Flavor.default source) = .error e) : parse source = .error e := by
  unfold parse; unfold Parser.newIn at h; rw [h]

theorem parse_good {source : Text} {u : Unit} {p : Parser}
    (h : parseRoot (Parser.newIn Flavor.default source) = .ok (u, p)) :
    parse source = p.builder.b.build := by
  unfold parse; unfold Parser.newIn at h; rw [h]

/-- Parsing a text of any size. -/
theorem parse_any {source : Text} {ps : List (Syn × Text)} (hl : Lexed source ps) :
    ∃ used rest G, ps = used ++ rest ∧ Sum (kinds ps) (shape G) (kinds rest) ∧
      (2 ^ 32 ≤ lens used → parse source = .error .overflow) ∧
      (lens used < 2 ^ 32 → ∃ t ops F, parse source = .ok t ∧ Clean Flavor.default ops ∧
        Built Flavor.default ops t F ∧ t.span = ⟨0, lens used⟩ ∧
        F.content = single (.root, ⟨0, lens used⟩) G ∧ Calc.Tiles G 0 (lens used) ∧
        Calc.solid G = lay 0 used ∧ G ≠ .nil) := by
  obtain ⟨p, t, ops, F, used, rest, G, h1, h2, ⟨hcl, hbt⟩, hps, hsp, hF, htl, hso, hS, hG, hsz⟩ :=
    root_in (ib := Text.bytes source + 32) (pw := 16 * Text.bytes source + 164) hl
      (lt_two_pow_add _ _)
      (by have := lt_two_pow_add (16 * Text.bytes source + 100) 64; simpa [Nat.add_assoc] using this)
  have w : Wider Flavor.default (Flavor.sized (Text.bytes source + 32)
      (16 * Text.bytes source + 164)) 32 (Text.bytes source + 32) :=
    Wider.sized (by omega) (by omega)
  have ht : p.builder.b.tree = t := by
    unfold Builder.build at h2
    split at h2
    · simp at h2
    · exact Except.ok.inj h2
  have hcur : view.at p = lens used := by
    have hi := (Math.F.parseRoot w).mono _ () p (by show CurInv Builder.new; exact CurInv.new) h1
    have hs := hi.1.stop
    have : (view.sys p).b.tree.span = ⟨0, lens used⟩ := by
      show p.builder.b.tree.span = _
      rw [ht, hsp]
    rw [this] at hs
    exact (Span.mk.inj hs).2.symm
  have hul : used.length ≤ lens used := by
    have key : ∀ (l : List (Syn × Text)), (∀ q ∈ l, q.2 ≠ []) → l.length ≤ lens l := by
      intro l
      induction l with
      | nil => intro _; exact Nat.zero_le _
      | cons q l ih =>
        intro h
        have := ih (fun x hx => h x (by simp [hx]))
        have h1 := h q (by simp)
        cases hq : q.2 with
        | nil => exact absurd hq h1
        | cons c cs =>
          have := Syntree.utf8_pos c
          simp only [lens, List.map_cons, List.sum_cons, List.length_cons, hq, Text.bytes] at *
          omega
    exact key used (fun q hq => hl.ne_nil q (by rw [hps]; simp [hq]))
  have hlen : t.nodes.length = G.size + 1 := by
    rw [← hbt.represents.size, ← content_size, hF]
    simp only [Forest.size]; omega
  refine ⟨used, rest, G, hps, hS, ?_, ?_⟩
  · intro hge
    rcases (Math.F.parseRoot w).start (p := Parser.newIn Flavor.default source) rfl rfl with
      ⟨x, p', e1, e2, e3⟩ | ⟨e, e1, e2⟩ | ⟨e1, _⟩
    · have : (Except.ok ((), p) : Except Err (Unit × Parser)) = .ok (x, view.setFl p' _) :=
        h1.symm.trans e2
      obtain ⟨_, rfl⟩ := Prod.mk.inj (Except.ok.inj this)
      rw [View.at_setFl] at hcur
      omega
    · have : (Except.ok ((), p) : Except Err (Unit × Parser)) = .error e := h1.symm.trans e2
      simp at this
    · exact parse_error e1
  · intro hlt
    have hfit : t.nodes.length < 2 ^ 64 - 1 := by omega
    obtain ⟨c1, c2⟩ := hbt.narrow w hcl (by rw [hsp]; exact hlt) hfit
    refine ⟨t, ops, F, ?_, c1, c2, hsp, hF, htl, hso, hG⟩
    rcases (Math.F.parseRoot w).start (p := Parser.newIn Flavor.default source) rfl rfl with
      ⟨x, p', e1, e2, e3⟩ | ⟨e, e1, e2⟩ | ⟨_, e2⟩
    · have : (Except.ok ((), p) : Except Err (Unit × Parser)) = .ok (x, view.setFl p' _) :=
        h1.symm.trans e2
      obtain ⟨_, rfl⟩ := Prod.mk.inj (Except.ok.inj this)
      exact (parse_good e1).trans h2
    · have : (Except.ok ((), p) : Except Err (Unit × Parser)) = .error e := h1.symm.trans e2
      simp at this
    · rcases e2 () p h1 with h | h
      · omega
      · have : view.len p = t.nodes.length := by
          show p.builder.b.tree.nodes.length = _
          rw [ht]
        rw [this] at h
        have : Flavor.default.width = 64 := rfl
        rw [this] at h
        omega

end Math

namespace Synth

theorem tokenLoop_large {a b : Flavor} {i j : Nat} (w : Wider a b i j) {st : Storage} :
    ∀ (fuel : Nat) (l : Lexer) (s s' : Sys Syn), CurInv s.b → s.b.cursor < 2 ^ i →
      tokenLoop b st fuel l s = .ok s' → 2 ^ i ≤ s'.b.cursor →
      tokenLoop a st fuel l s = .error (.builder .overflow) := by
  intro fuel
  induction fuel with
  | zero => intro l s s' _ _ h; simp [tokenLoop] at h
  | succ fuel ih =>
    intro l s s' hi hc h hge
    unfold tokenLoop at h ⊢
    cases hn : l.next st with
    | error e => rw [hn] at h; simp at h
    | ok r =>
      obtain ⟨l', o⟩ := r
      cases o with
      | none =>
        rw [hn] at h
        simp only [Except.ok.injEq] at h
        subst h
        omega
      | some x =>
        obtain ⟨syn, len⟩ := x
        rw [hn] at h
        simp only at h ⊢
        cases hb : s.step b (.token syn len) with
        | mk s1 r1 =>
          rw [hb] at h
          cases r1 with
          | error e => simp at h
          | ok o =>
            simp only at h
            rcases w.step s (.token syn len) with e | ⟨e, _⟩
            · rw [e, hb]
              simp only
              have hst := hi.step (fl := b) (op := .token syn len) rfl
              rw [hb] at hst
              have hi1 : CurInv s1.b := by
                rcases hst with ⟨h1, _⟩ | ⟨h1, _⟩
                · simp at h1
                · exact h1
              refine ih l' s1 s' hi1 ?_ h hge
              by_cases h0 : len = 0
              · subst h0
                rcases hst with ⟨h1, _⟩ | ⟨_, h1⟩
                · simp at h1
                · simp only [Op.len, ite_self, Nat.add_zero] at h1
                  rw [h1]; exact hc
              · have h2 := hi.token_moves w.right h0 hb
                rw [h2]
                rcases Nat.lt_or_ge (s.b.cursor + len) (2 ^ i) with hlt | hge
                · exact hlt
                · exfalso
                  rw [hb] at e
                  simp only [Sys.step, Sys.lift, Builder.token, w.left, IndexKind.lenIsEmpty,
                    IndexKind.checkedAddLen, beq_iff_eq, h0, if_neg (Nat.not_lt.2 hge)] at e
                  simp [Except.map] at e
            · cases ha : s.step a (.token syn len) with
              | mk s2 r2 => rw [ha] at e; simp only at e; rw [e]

/-- A text that does not fit into the index. -/
theorem run_large (st : Storage) {source : Text} (hb : 2 ^ 32 ≤ Text.bytes source) :
    run st source = .error (.builder .overflow) := by
  obtain ⟨ps, hl⟩ := Lexed.total source
  have h1 := hl.length_le
  have h2 := length_le_bytes source
  obtain ⟨s, n, e, c⟩ := tokenLoop_ok (ib := Text.bytes source + 32)
    (pw := Text.bytes source + 65) (st := st) ps (source.length + 1)
    (Lexer.new source) [] source Sys.init Nest.init ⟨.nil, 0⟩ (by omega) (Lexer.At.new source) hl
    Cli.init rfl (by simpa using lt_two_pow_add _ _)
    (by
      simp only [Forest.size]
      have := lt_two_pow_add (Text.bytes source + 1) 64
      rw [show Text.bytes source + 1 + 64 = Text.bytes source + 65 by omega] at this
      omega)
  have w : Wider Flavor.default (Flavor.sized (Text.bytes source + 32) (Text.bytes source + 65))
      32 (Text.bytes source + 32) := Wider.sized (by omega) (by omega)
  have := tokenLoop_large w _ _ _ _ CurInv.new (Nat.two_pow_pos 32) e (by
    rw [c.logged.rel.cursor, c.pos]; simpa using hb)
  unfold run
  rw [this]

end Synth

end Syntree
