import Verif.Spec.CalcError
import Verif.Props.Calc

/-! Where the errors of the calculator point. -/

namespace Syntree.Calc

open Forest

/-- The children of an element, if it has any, fill it. -/
def Filled (p : (Syn × Span) × Forest (Syn × Span)) : Prop :=
  p.1.2.start ≤ p.1.2.stop ∧ (p.2 ≠ .nil → Tiles p.2 p.1.2.start p.1.2.stop)

theorem Tiles.first {x : Syn × Span} {k r : Forest (Syn × Span)} {a b : Nat}
    (h : Tiles (.cons x k r) a b) : Filled (x, k) ∧ a ≤ x.2.start ∧ x.2.stop ≤ b := by
  obtain ⟨m, e, hm, hk, hr⟩ := h
  have := hr.le
  simp only [Filled, e]
  exact ⟨⟨hm, hk⟩, Nat.le_refl _, this⟩

theorem Tiles.branches : ∀ {F : Forest (Syn × Span)} {a b : Nat}, Tiles F a b →
    ∀ p ∈ branches F, p.2 ≠ .nil ∧ Filled p ∧ a ≤ p.1.2.start ∧ p.1.2.stop ≤ b
  | .nil, _, _, _, p, hp => by simp [Calc.branches] at hp
  | .cons x k r, a, b, h, p, hp => by
    have hf := h.first
    obtain ⟨m, e, hm, hk, hr⟩ := h
    have rest : p ∈ Calc.branches r → p.2 ≠ .nil ∧ Filled p ∧ a ≤ p.1.2.start ∧ p.1.2.stop ≤ b := by
      intro hp
      obtain ⟨h1, h2, h3, h4⟩ := hr.branches p hp
      exact ⟨h1, h2, by omega, h4⟩
    cases k with
    | nil => exact rest hp
    | cons y k k' =>
      simp only [Calc.branches, List.mem_cons] at hp
      rcases hp with rfl | hp
      · exact ⟨by simp, hf⟩
      · exact rest hp

theorem Loc.embed {β : Type} {x : β} {kx L R F : Forest β} (e : F = L ++ .cons x kx R)
    {anc : List β} {l k r : Forest β} {y : β} (h : Loc (.cons x kx .nil) anc l y k r) :
    (∃ l' r', Loc F anc l' y k r') ∧ x ∈ y :: anc := by
  induction h with
  | root h =>
    rename_i left y kids right
    cases left with
    | nil =>
      simp only [nil_append, Forest.cons.injEq] at h
      obtain ⟨rfl, rfl, rfl⟩ := h
      exact ⟨⟨_, _, .root e⟩, by simp⟩
    | cons z kz left =>
      simp only [cons_append, Forest.cons.injEq] at h
      obtain ⟨_, _, h⟩ := h
      cases left <;> simp at h
  | child _ h ih =>
    obtain ⟨⟨l', r', ih⟩, hm⟩ := ih
    exact ⟨⟨_, _, .child ih h⟩, List.mem_cons_of_mem _ hm⟩

/-- `q` is `p` or below it. -/
def Under {β : Type} (p q : β × Forest β) : Prop :=
  ∃ anc l r, Loc (.cons p.1 p.2 .nil) anc l q.1 q.2 r

theorem Under.refl {β : Type} (p : β × Forest β) : Under p p := ⟨_, .nil, .nil, .root rfl⟩

theorem Under.kid {β : Type} {x : β} {k : Forest β} {q p : β × Forest β}
    (h : ∃ l r, k = l ++ .cons p.1 p.2 r) (hq : Under p q) : Under (x, k) q := by
  obtain ⟨L, R, e⟩ := h
  obtain ⟨anc, l, r, hq⟩ := hq
  obtain ⟨⟨l', r', h⟩, _⟩ := Loc.embed e hq
  exact ⟨_, _, _, (Loc.root (left := .nil) (right := .nil) rfl).trans h⟩

/-- One of the elements with children has a first child with this value. -/
def OpIn (rs : List ((Syn × Span) × Forest (Syn × Span))) (what : Syn) : Prop :=
  ∃ p ∈ rs, ∃ y k r, p.2 = .cons y k r ∧ y.1 = what

/-- `Truthful` on nested lists. -/
def TrueOf (source : Text) (value : Syn) (span : Span)
    (rs : List ((Syn × Span) × Forest (Syn × Span))) : Kind → Prop
  | .badNumber => value = .number ∧
      ∃ text, source.get (span.range Flavor.default.ik) = some text ∧ parseI64 text = none
  | .expected want got => want = .number ∧ got = value ∧ value ≠ .number ∧ value ≠ .group ∧
      value ≠ .operation
  | .missing what => what = .number ∧ (value = .group ∨ value = .operation)
  | .unexpectedOperator what => value = .operation ∧ OpIn rs what ∧
      what ∉ [.plus, .minus, .mul, .div, .pow]
  | .expectedOperator => False
  | .overflow => value = .operation ∧ ∃ what ∈ [.plus, .mul, .pow], OpIn rs what
  | .underflow => value = .operation ∧ OpIn rs .minus
  | .divideByZero => value = .operation ∧ OpIn rs .div

theorem OpIn.mono {rs rs' : List ((Syn × Span) × Forest (Syn × Span))} {what : Syn}
    (hs : ∀ p ∈ rs, p ∈ rs') (h : OpIn rs what) : OpIn rs' what := by
  obtain ⟨p, hp, h⟩ := h
  exact ⟨p, hs p hp, h⟩

theorem TrueOf.mono {source : Text} {value : Syn} {span : Span}
    {rs rs' : List ((Syn × Span) × Forest (Syn × Span))} {kind : Kind}
    (hs : ∀ p ∈ rs, p ∈ rs') (h : TrueOf source value span rs kind) :
    TrueOf source value span rs' kind := by
  cases kind with
  | unexpectedOperator what => exact ⟨h.1, h.2.1.mono hs, h.2.2⟩
  | overflow => obtain ⟨h1, w, hw, h2⟩ := h; exact ⟨h1, w, hw, h2.mono hs⟩
  | underflow => exact ⟨h.1, h.2.mono hs⟩
  | divideByZero => exact ⟨h.1, h.2.mono hs⟩
  | _ => exact h

theorem table_none {s : Syn} (h : table s = none) : s ∉ [Syn.plus, .minus, .mul, .div, .pow] := by
  cases s <;> simp [table] at h ⊢

theorem evalF_blame (source : Text) (fuel : Nat) :
    (∀ x k e, Filled (x, k) → evalF source fuel x k = some (.error e) →
      ∃ q, Under (x, k) q ∧ e.span = q.1.2 ∧ TrueOf source q.1.1 q.1.2 (branches q.2) e.kind) ∧
    (∀ (span : Span) rs base e, (∀ p ∈ rs, p.2 ≠ .nil ∧ Filled p ∧ span.start ≤ p.1.2.start ∧
        p.1.2.stop ≤ span.stop) → opsF source fuel span rs base = some (.error e) →
      (e.span = span ∧ TrueOf source .operation span rs e.kind) ∨
      ∃ p ∈ rs, ∃ q, Under p q ∧ e.span = q.1.2 ∧
        TrueOf source q.1.1 q.1.2 (branches q.2) e.kind) := by
  induction fuel with
  | zero => exact ⟨fun _ _ _ _ h => by simp [evalF] at h, fun _ _ _ _ _ h => by simp [opsF] at h⟩
  | succ fuel ih =>
    obtain ⟨ihn, iho⟩ := ih
    refine ⟨?_, ?_⟩
    · intro x k e hf h
      obtain ⟨d, sp⟩ := x
      unfold evalF at h
      cases d with
      | group =>
        cases k with
        | nil =>
          simp only [Option.some.injEq, Except.error.injEq] at h
          subst h
          exact ⟨_, .refl _, rfl, rfl, .inl rfl⟩
        | cons y k r =>
          have ht := (hf.2 (by simp)).first
          obtain ⟨z, hz, h2⟩ := ihn y k e ht.1 h
          exact ⟨z, .kid ⟨.nil, r, rfl⟩ hz, h2⟩
      | number =>
        simp only at h
        cases hg : source.get (sp.range Flavor.default.ik) with
        | none => rw [hg] at h; simp at h
        | some text =>
          rw [hg] at h
          simp only at h
          cases hp : parseI64 text with
          | some n => rw [hp] at h; simp at h
          | none =>
            rw [hp] at h
            simp only [Option.some.injEq, Except.error.injEq] at h
            subst h
            exact ⟨_, .refl _, rfl, rfl, text, hg, hp⟩
      | operation =>
        simp only at h
        cases hbr : branches k with
        | nil =>
          rw [hbr] at h
          simp only [Option.some.injEq, Except.error.injEq] at h
          subst h
          exact ⟨_, .refl _, rfl, rfl, .inr rfl⟩
        | cons p rs =>
          have hk : k ≠ .nil := by rintro rfl; simp [branches] at hbr
          have hb := (hf.2 hk).branches
          have hpre := branches_loc (F := k)
          have hall : ∀ q ∈ p :: rs, q ∈ branches k := by rw [hbr]; exact fun _ h => h
          rw [hbr] at h hb hpre
          obtain ⟨y, k'⟩ := p
          simp only at h
          cases he : evalF source fuel y k' with
          | none => rw [he] at h; simp at h
          | some v =>
            rw [he] at h
            cases v with
            | error e' =>
              simp only [Option.some.injEq, Except.error.injEq] at h
              subst h
              obtain ⟨z, hz, h2⟩ := ihn y k' _ (hb _ (by simp)).2.1 he
              exact ⟨z, .kid (hpre (y, k') (by simp)) hz, h2⟩
            | ok b =>
              simp only at h
              rcases iho sp rs b e (fun p hp => hb p (by simp [hp])) h with ⟨h1, h2⟩ | ⟨p, hp, z, hz, h2⟩
              · exact ⟨_, .refl _, h1, h2.mono (fun q hq => hall q (by simp [hq]))⟩
              · exact ⟨z, .kid (hpre p (by simp [hp])) hz, h2⟩
      | _ =>
        simp only [Option.some.injEq, Except.error.injEq] at h
        subst h
        exact ⟨_, .refl _, rfl, rfl, rfl, by simp, by simp, by simp⟩
    · intro span rs base e hb h
      cases rs with
      | nil => simp [opsF] at h
      | cons p rs =>
        obtain ⟨x, k⟩ := p
        cases k with
        | nil => exact absurd rfl (hb (x, .nil) (by simp)).1
        | cons y k k' =>
          unfold opsF at h
          cases ht : table y.1 with
          | none =>
            rw [ht] at h
            simp only [Option.some.injEq, Except.error.injEq] at h
            subst h
            exact .inl ⟨rfl, rfl, ⟨(x, .cons y k k'), by simp, y, k, k', rfl, rfl⟩, table_none ht⟩
          | some c =>
            obtain ⟨calculate, error⟩ := c
            rw [ht] at h
            simp only at h
            cases rs with
            | nil =>
              simp only [Option.some.injEq, Except.error.injEq] at h
              subst h
              exact .inl ⟨rfl, rfl, .inr rfl⟩
            | cons q rs =>
              obtain ⟨z, kz⟩ := q
              simp only at h
              cases he : evalF source fuel z kz with
              | none => rw [he] at h; simp at h
              | some v =>
                rw [he] at h
                cases v with
                | error e' =>
                  simp only [Option.some.injEq, Except.error.injEq] at h
                  subst h
                  obtain ⟨u, hu, h2⟩ := ihn z kz _ (hb (z, kz) (by simp)).2.1 he
                  exact .inr ⟨(z, kz), by simp, u, hu, h2⟩
                | ok b =>
                  simp only at h
                  cases hc : calculate base b with
                  | some n =>
                    rw [hc] at h
                    rcases iho span rs n e (fun p hp => hb p (by simp [hp])) h with h1 | ⟨p, hp, h1⟩
                    · exact .inl ⟨h1.1, h1.2.mono (fun p hp => by simp [hp])⟩
                    · exact .inr ⟨p, by simp [hp], h1⟩
                  | none =>
                    rw [hc] at h
                    simp only [Option.some.injEq, Except.error.injEq] at h
                    subst h
                    refine .inl ⟨?_, ?_⟩
                    · obtain ⟨_, hfl, a1, a2⟩ := hb (x, .cons y k k') (by simp)
                      obtain ⟨_, b1, b2⟩ := (hfl.2 (by simp)).first
                      simp only at a1 a2 b1 b2
                      show Span.join y.2 span = span
                      unfold Span.join
                      rw [Nat.min_eq_right (by omega), Nat.max_eq_right (by omega)]
                    · have ho : OpIn ((x, .cons y k k') :: (z, kz) :: rs) y.1 :=
                        ⟨(x, .cons y k k'), by simp, y, k, k', rfl, rfl⟩
                      cases hy : y.1 <;> rw [hy] at ht ho <;> simp [table] at ht <;>
                        obtain ⟨_, rfl⟩ := ht
                      all_goals first | exact ⟨rfl, ho⟩ | exact ⟨rfl, _, by simp, ho⟩

end Syntree.Calc
