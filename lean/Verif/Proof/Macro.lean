import Verif.Proof.Listing
import Verif.Proof.Hist
import Verif.Proof.Spans
import Verif.Spec.Macro

/-! Running the calls of a literal. -/

namespace Syntree

variable {α : Type} {fl : Flavor}

open Forest

def firstErr : List (Except Err Out) → Option Err
  | [] => none
  | .ok _ :: os => firstErr os
  | .error e :: _ => some e

theorem firstErr_append (a b : List (Except Err Out)) :
    firstErr (a ++ b) = match firstErr a with | none => firstErr b | some e => some e := by
  induction a with
  | nil => rfl
  | cons o a ih => cases o <;> simp [firstErr, ih]

theorem firstErr_none {os : List (Except Err Out)} (h : firstErr os = none) :
    ∀ o ∈ os, ∃ v, o = .ok v := by
  induction os with
  | nil => simp
  | cons o os ih =>
    cases o with
    | error e => simp [firstErr] at h
    | ok v =>
      simp only [firstErr] at h
      simp only [List.mem_cons]
      rintro o (rfl | ho)
      · exact ⟨v, rfl⟩
      · exact ih h o ho

theorem Sys.tryRun_eq (s : Sys α) (ops : List (Op α)) :
    s.tryRun fl ops = match firstErr (s.run fl ops).2 with
      | none => .ok (s.run fl ops).1
      | some e => .error e := by
  induction ops generalizing s with
  | nil => rfl
  | cons op ops ih =>
    simp only [Sys.tryRun, Sys.run]
    rcases h : s.step fl op with ⟨s1, o⟩
    cases o with
    | error e => simp [firstErr]
    | ok v => simp only [firstErr, ih]

theorem endParent_endParent (a b : Nat) (st : Stack α) :
    Nest.endParent b (Nest.endParent a st) = Nest.endParent b st := by
  cases st <;> rfl

/-- The innermost open node ends at `c`. -/
def TopAt (c : Nat) : Stack α → Prop
  | [] => True
  | (x, _) :: _ => x.span.start ≤ c ∧ x.span.stop = c

theorem TopAt.endParent {c c' : Nat} {st : Stack α} (h : TopAt c st) (hc : c ≤ c') :
    TopAt c' (Nest.endParent c' st) := by
  cases st with
  | nil => trivial
  | cons p st =>
    obtain ⟨h1, h2⟩ := h
    exact ⟨by simp; omega, rfl⟩

theorem TopAt.endParent_self {c : Nat} {st : Stack α} (h : TopAt c st) :
    Nest.endParent c st = st := by
  cases st with
  | nil => rfl
  | cons p st =>
    obtain ⟨⟨i, d, ⟨a, b⟩⟩, l⟩ := p
    obtain ⟨h1, h2⟩ := h
    simp only at h2
    simp [Nest.endParent, h2]

theorem TopAt.growParent {c c' : Nat} {st : Stack α} (h : TopAt c st) (hc : c ≤ c') :
    Nest.growParent ⟨c, c'⟩ st = Nest.endParent c' st := by
  cases st with
  | nil => rfl
  | cons p st =>
    obtain ⟨⟨i, d, ⟨a, b⟩⟩, l⟩ := p
    obtain ⟨h1, h2⟩ := h
    simp only at h1 h2
    simp only [Nest.growParent, Nest.endParent, Span.join]
    have : min a c = a := by omega
    have : max b c' = c' := by omega
    simp [*]

theorem Nest.run_cons {n n1 : Nest α} {op : Op α} {o : Except Err Out} {ops : List (Op α)}
    (h : n.step fl op = some (n1, o)) {n2 : Nest α} {os : List (Except Err Out)}
    (h2 : n1.run fl ops = some (n2, os)) : n.run fl (op :: ops) = some (n2, o :: os) := by
  simp only [Nest.run, h, h2]

theorem Nest.run_app {n n1 n2 : Nest α} {ops ops' : List (Op α)} {os os' : List (Except Err Out)}
    (h : n.run fl ops = some (n1, os)) (h2 : n1.run fl ops' = some (n2, os')) :
    n.run fl (ops ++ ops') = some (n2, os ++ os') := by
  rw [Nest.run_append, h]
  simp only [h2]

/-- Calls other than `close_at` are always covered. -/
theorem Nest.run_total {ops : List (Op α)} (hc : ∀ op ∈ ops, op.isCloseAt = false) (n : Nest α) :
    ∃ n' os, n.run fl ops = some (n', os) := by
  induction ops generalizing n with
  | nil => exact ⟨n, [], rfl⟩
  | cons op ops ih =>
    have h1 : ∃ n1 o, n.step fl op = some (n1, o) := by
      have := hc op (by simp)
      cases op <;> first | (simp [Op.isCloseAt] at this; done) | exact ⟨_, _, rfl⟩
    obtain ⟨n1, o, h1⟩ := h1
    obtain ⟨n2, os, h2⟩ := ih (fun op hop => hc op (by simp [hop])) n1
    exact ⟨n2, o :: os, Nest.run_cons h1 h2⟩

theorem Lit.calls_noCloseAt (lit : Lit α) : ∀ op ∈ lit.calls, op.isCloseAt = false := by
  induction lit with
  | nil => simp [Lit.calls]
  | node d k r ihk ihr | nodeWith d sp k r ihk ihr =>
    simp only [Lit.calls, List.mem_cons, List.mem_append]
    rintro op (rfl | h | rfl | h)
    · rfl
    · exact ihk op h
    · rfl
    · exact ihr op h
  | token d n r ih | tokenEmpty d r ih | tokenWith d sp r ih =>
    simp only [Lit.calls, List.mem_cons]
    rintro op (rfl | h)
    · rfl
    · exact ih op h

theorem Lit.Addressable.mono {ik : IndexKind} {a b : Nat} (h : Lit.Addressable ik b) (hab : a ≤ b) :
    Lit.Addressable ik a := by
  cases ik with
  | empty => trivial
  | bits w => simp only [Lit.Addressable] at *; omega

/-- The token call, when there is room and when there is not. -/
theorem Nest.token_fits {n : Nest α} {d : α} {len : Nat} (hs : n.stop = n.cursor)
    (h : n.count < 2 ^ fl.width - 1) (ha : Lit.Addressable fl.ik (n.cursor + Lit.tokenLen fl.ik len)) :
    n.token fl d len =
      (⟨n.cur ++ leaf ⟨n.count, d, ⟨n.cursor, n.cursor + Lit.tokenLen fl.ik len⟩⟩,
        Nest.endParent (n.cursor + Lit.tokenLen fl.ik len) n.stack,
        n.cursor + Lit.tokenLen fl.ik len, n.count + 1, n.cursor + Lit.tokenLen fl.ik len,
        n.marks⟩, .ok (.id n.count)) := by
  have hf : ¬ n.full fl = true := not_full_iff.2 h
  obtain ⟨cur, st, c, k, stop, ms⟩ := n
  simp only at hs ha
  subst hs
  unfold Nest.token
  cases hik : fl.ik with
  | empty => simp [IndexKind.lenIsEmpty, Lit.tokenLen, hf, Nest.addLeaf, Span.point]
  | bits w =>
    rw [hik] at ha
    simp only [Lit.tokenLen, Lit.Addressable] at ha
    by_cases hl : len = 0
    · subst hl
      simp [IndexKind.lenIsEmpty, Lit.tokenLen, hf, Nest.addLeaf, Span.point]
    · simp [IndexKind.lenIsEmpty, Lit.tokenLen, hf, Nest.addLeaf, hl, IndexKind.checkedAddLen, ha]

theorem Nest.token_fails {n : Nest α} {d : α} {len : Nat} (hc : Lit.Addressable fl.ik n.cursor)
    (h : ¬ (n.count < 2 ^ fl.width - 1 ∧
      Lit.Addressable fl.ik (n.cursor + Lit.tokenLen fl.ik len))) :
    (n.token fl d len).2 = .error .overflow := by
  unfold Nest.token
  by_cases hf : n.full fl = true
  · split
    · simp [hf]
    · split <;> simp [hf]
  · have hcount := not_full_iff.1 hf
    cases hik : fl.ik with
    | empty => rw [hik] at h; exact absurd ⟨hcount, trivial⟩ h
    | bits w =>
      rw [hik] at h hc
      simp only [Lit.tokenLen, Lit.Addressable, hcount, true_and] at h hc
      by_cases hl : len = 0
      · subst hl; exact absurd hc h
      · simp [IndexKind.lenIsEmpty, hl, IndexKind.checkedAddLen, h]

/-- The state after a plain literal. -/
def Lit.after (ik : IndexKind) (lit : Lit α) (n : Nest α) : Nest α :=
  ⟨n.cur ++ lit.layout ik n.cursor n.count, Nest.endParent (n.cursor + lit.len ik) n.stack,
    n.cursor + lit.len ik, n.count + lit.count, n.cursor + lit.len ik, n.marks⟩

/-- Running the calls of a plain literal from any state whose innermost open node ends at the
cursor. -/
theorem Lit.run_plain (lit : Lit α) : ∀ (n : Nest α), lit.plain = true →
    n.stop = n.cursor → TopAt n.cursor n.stack →
    n.count ≤ 2 ^ fl.width - 1 → Lit.Addressable fl.ik n.cursor →
    ∃ n' os, n.run fl lit.calls = some (n', os) ∧
      ((n.count + lit.count ≤ 2 ^ fl.width - 1 ∧
        Lit.Addressable fl.ik (n.cursor + lit.len fl.ik) ∧ firstErr os = none ∧
        n' = lit.after fl.ik n) ∨
      (¬ (n.count + lit.count ≤ 2 ^ fl.width - 1 ∧
        Lit.Addressable fl.ik (n.cursor + lit.len fl.ik)) ∧ firstErr os = some .overflow)) := by
  induction lit with
  | nil =>
    intro n _ hs ht hc ha
    refine ⟨n, [], rfl, .inl ⟨hc, ha, rfl, ?_⟩⟩
    obtain ⟨cur, st, c, k, stop, ms⟩ := n
    simp only at hs ht
    subst hs
    simp [Lit.after, Lit.layout, Lit.len, Lit.count, ht.endParent_self]
  | nodeWith => intro n hp; simp [Lit.plain] at hp
  | tokenWith => intro n hp; simp [Lit.plain] at hp
  | node d k r ihk ihr =>
    intro n hp hs ht hc ha
    simp only [Lit.plain, Bool.and_eq_true] at hp
    simp only [Lit.calls, Lit.count, Lit.len]
    by_cases hf : n.count < 2 ^ fl.width - 1
    · have hf' : ¬ n.full fl = true := not_full_iff.2 hf
      have h1 : n.step fl (.open d) = some (n.addOpen d (Span.point n.cursor), .ok (.id n.count)) := by
        simp [Nest.step, Nest.openWith, hf']
      have ht1 : TopAt (n.addOpen d (Span.point n.cursor)).cursor
          (n.addOpen d (Span.point n.cursor)).stack := ⟨Nat.le_refl _, rfl⟩
      obtain ⟨n2, os2, h2, hk⟩ := ihk (n.addOpen d (Span.point n.cursor)) hp.1 hs ht1 hf ha
      have hcnt : (n.addOpen d (Span.point n.cursor)).count = n.count + 1 := rfl
      have hcur : (n.addOpen d (Span.point n.cursor)).cursor = n.cursor := rfl
      rw [hcnt, hcur] at hk
      obtain hk | hk := hk
      · obtain ⟨hk1, hk2, hk3, hk4⟩ := hk
        let n3 : Nest α := ⟨n.cur ++ single ⟨n.count, d, ⟨n.cursor, n.cursor + k.len fl.ik⟩⟩
            (k.layout fl.ik n.cursor (n.count + 1)),
          Nest.endParent (n.cursor + k.len fl.ik) n.stack, n.cursor + k.len fl.ik,
          n.count + 1 + k.count, n.cursor + k.len fl.ik, n.marks⟩
        have h3 : n2.step fl .close = some (n3, .ok .unit) := by
          rw [hk4]
          have e : Nest.endParent n.cursor n.stack = n.stack := ht.endParent_self
          have e' : Nest.growParent ⟨n.cursor, n.cursor + k.len fl.ik⟩ n.stack =
            Nest.endParent (n.cursor + k.len fl.ik) n.stack := ht.growParent (Nat.le_add_right _ _)
          have e2 : (Lit.after fl.ik k (n.addOpen d (Span.point n.cursor))).stack =
              (⟨n.count, d, ⟨n.cursor, n.cursor + k.len fl.ik⟩⟩, n.cur) :: n.stack := by
            have : (Nest.addOpen n d (Span.point n.cursor)).stack =
                (⟨n.count, d, Span.point n.cursor⟩, n.cur) :: Nest.endParent n.cursor n.stack := rfl
            simp only [Lit.after, this, e]
            rfl
          simp only [Nest.step, e2, e', n3]
          rfl
        obtain ⟨n4, os4, h4, hr⟩ := ihr n3 hp.2 rfl (ht.endParent (c' := n.cursor + k.len fl.ik) (Nat.le_add_right _ _)) hk1 hk2
        refine ⟨n4, _, Nest.run_cons h1 (Nest.run_app h2 (Nest.run_cons h3 h4)), ?_⟩
        simp only [firstErr, firstErr_append, hk3]
        have e1 : n3.count = n.count + 1 + k.count := rfl
        have e2 : n3.cursor = n.cursor + k.len fl.ik := rfl
        rw [e1, e2] at hr
        have e3 : n.count + (1 + k.count + r.count) = n.count + 1 + k.count + r.count := by omega
        have e4 : n.cursor + (k.len fl.ik + r.len fl.ik) = n.cursor + k.len fl.ik + r.len fl.ik := by
          omega
        rw [e3, e4]
        obtain ⟨a1, a2, a3, a4⟩ | hr := hr
        · refine .inl ⟨a1, a2, a3, ?_⟩
          rw [a4]
          simp only [Lit.after, Lit.layout, n3, Lit.len, Lit.count, e3, e4, endParent_endParent,
            append_assoc]
          rfl
        · exact .inr hr
      · obtain ⟨n4, os4, h4⟩ := Nest.run_total (fl := fl) (ops := .close :: r.calls) (by
          simp only [List.mem_cons]
          rintro op (rfl | h)
          · rfl
          · exact r.calls_noCloseAt op h) n2
        refine ⟨n4, _, Nest.run_cons h1 (Nest.run_app h2 h4), .inr ⟨?_, ?_⟩⟩
        · rintro ⟨b1, b2⟩
          exact hk.1 ⟨by omega, b2.mono (by omega)⟩
        · simp only [firstErr, firstErr_append, hk.2]
    · have hf' : n.full fl = true := full_iff.2 hf
      have h1 : n.step fl (.open d) = some (n, .error .overflow) := by
        simp [Nest.step, Nest.openWith, hf']
      obtain ⟨n4, os4, h4⟩ := Nest.run_total (fl := fl) (ops := k.calls ++ .close :: r.calls) (by
          simp only [List.mem_append, List.mem_cons]
          rintro op (h | rfl | h)
          · exact k.calls_noCloseAt op h
          · rfl
          · exact r.calls_noCloseAt op h) n
      refine ⟨n4, _, Nest.run_cons h1 h4, .inr ⟨?_, rfl⟩⟩
      rintro ⟨b1, _⟩; omega
  | token d len r ih =>
    intro n hp hs ht hc ha
    simp only [Lit.plain] at hp
    simp only [Lit.calls, Lit.count, Lit.len]
    have e3 : n.count + (1 + r.count) = n.count + 1 + r.count := by omega
    have e4 : n.cursor + (tokenLen fl.ik len + r.len fl.ik) =
      n.cursor + tokenLen fl.ik len + r.len fl.ik := by omega
    rw [e3, e4]
    by_cases hf : n.count < 2 ^ fl.width - 1 ∧
      Lit.Addressable fl.ik (n.cursor + Lit.tokenLen fl.ik len)
    · have h1 : n.step fl (.token d len) = some (n.token fl d len) := rfl
      rw [Nest.token_fits hs hf.1 hf.2] at h1
      obtain ⟨n2, os2, h2, hr⟩ := ih
        ⟨n.cur ++ leaf ⟨n.count, d, ⟨n.cursor, n.cursor + Lit.tokenLen fl.ik len⟩⟩,
          Nest.endParent (n.cursor + Lit.tokenLen fl.ik len) n.stack,
          n.cursor + Lit.tokenLen fl.ik len, n.count + 1, n.cursor + Lit.tokenLen fl.ik len,
          n.marks⟩ hp rfl (ht.endParent (Nat.le_add_right _ _)) hf.1 hf.2
      refine ⟨n2, _, Nest.run_cons h1 h2, ?_⟩
      obtain ⟨a1, a2, a3, a4⟩ | hr := hr
      · refine .inl ⟨a1, a2, a3, ?_⟩
        rw [a4]
        simp only [Lit.after, Lit.layout, Lit.len, Lit.count, e3, e4, endParent_endParent,
            append_assoc]
        rfl
      · exact .inr hr
    · have h1 : n.step fl (.token d len) = some ((n.token fl d len).1, .error .overflow) := by
        rw [← Nest.token_fails (d := d) ha hf]; rfl
      obtain ⟨n4, os4, h4⟩ := Nest.run_total (fl := fl) r.calls_noCloseAt (n.token fl d len).1
      refine ⟨n4, _, Nest.run_cons h1 h4, .inr ⟨?_, rfl⟩⟩
      rintro ⟨b1, b2⟩
      exact hf ⟨by omega, b2.mono (by omega)⟩
  | tokenEmpty d r ih =>
    intro n hp hs ht hc ha
    simp only [Lit.plain] at hp
    simp only [Lit.calls, Lit.count, Lit.len]
    have e3 : n.count + (1 + r.count) = n.count + 1 + r.count := by omega
    have e0 : tokenLen fl.ik 0 = 0 := by cases fl.ik <;> rfl
    rw [e3]
    by_cases hf : n.count < 2 ^ fl.width - 1
    · have h1 : n.step fl (.tokenEmpty d) = some (n.token fl d 0) := rfl
      rw [Nest.token_fits hs hf (by rw [e0]; exact ha), e0] at h1
      obtain ⟨n2, os2, h2, hr⟩ := ih
        ⟨n.cur ++ leaf ⟨n.count, d, ⟨n.cursor, n.cursor⟩⟩, Nest.endParent n.cursor n.stack,
          n.cursor, n.count + 1, n.cursor, n.marks⟩ hp rfl (ht.endParent (Nat.le_refl _)) hf ha
      refine ⟨n2, _, Nest.run_cons h1 h2, ?_⟩
      obtain ⟨a1, a2, a3, a4⟩ | hr := hr
      · refine .inl ⟨a1, a2, a3, ?_⟩
        rw [a4]
        simp only [Lit.after, Lit.layout, Lit.len, Lit.count, e3, endParent_endParent,
            append_assoc]
        rfl
      · exact .inr hr
    · have h1 : n.step fl (.tokenEmpty d) = some ((n.token fl d 0).1, .error .overflow) := by
        rw [← Nest.token_fails (d := d) (len := 0) ha (fun h => hf h.1)]; rfl
      obtain ⟨n4, os4, h4⟩ := Nest.run_total (fl := fl) r.calls_noCloseAt (n.token fl d 0).1
      refine ⟨n4, _, Nest.run_cons h1 h4, .inr ⟨?_, rfl⟩⟩
      rintro ⟨b1, b2⟩; omega

/-- The nested list of values. -/
def datas (F : Forest (Lab α)) : Forest α := F.map (·.data)

theorem datas_append (F G : Forest (Lab α)) : datas (F ++ G) = datas F ++ datas G := by
  induction F with
  | nil => rfl
  | cons x k r _ ih => simp only [datas, Forest.map, cons_append] at *; rw [ih]

theorem datas_cons (x : Lab α) (k r : Forest (Lab α)) :
    datas (.cons x k r) = .cons x.data (datas k) (datas r) := rfl

/-- The open nodes without their spans. -/
def bare (st : Stack α) : List (α × Forest α) := st.map fun p => (p.1.data, datas p.2)

theorem bare_endParent (c : Nat) (st : Stack α) : bare (Nest.endParent c st) = bare st := by
  cases st <;> rfl

theorem bare_growParent (sp : Span) (st : Stack α) : bare (Nest.growParent sp st) = bare st := by
  cases st <;> rfl

/-- Running the calls of any literal: if no call fails, the values written are appended; the only
error is `Overflow`. -/
theorem Lit.run_values (lit : Lit α) : ∀ (n : Nest α),
    ∃ n' os, n.run fl lit.calls = some (n', os) ∧
      ((firstErr os = none ∧ datas n'.cur = datas n.cur ++ lit.values ∧
        bare n'.stack = bare n.stack ∧ n'.count = n.count + lit.count) ∨
      firstErr os = some .overflow) := by
  have nodes : ∀ (d : α) (sp : Span) (k r : Lit α),
    (∀ n : Nest α, ∃ n' os, n.run fl k.calls = some (n', os) ∧
      ((firstErr os = none ∧ datas n'.cur = datas n.cur ++ k.values ∧
        bare n'.stack = bare n.stack ∧ n'.count = n.count + k.count) ∨
      firstErr os = some .overflow)) →
    (∀ n : Nest α, ∃ n' os, n.run fl r.calls = some (n', os) ∧
      ((firstErr os = none ∧ datas n'.cur = datas n.cur ++ r.values ∧
        bare n'.stack = bare n.stack ∧ n'.count = n.count + r.count) ∨
      firstErr os = some .overflow)) →
    ∀ (n : Nest α) (op : Op α), n.step fl op = some (n.openWith fl d sp) →
    ∃ n' os, n.run fl (op :: (k.calls ++ .close :: r.calls)) = some (n', os) ∧
      ((firstErr os = none ∧ datas n'.cur = datas n.cur ++ .cons d k.values r.values ∧
        bare n'.stack = bare n.stack ∧ n'.count = n.count + (1 + k.count + r.count)) ∨
      firstErr os = some .overflow) := by
    intro d sp k r ihk ihr n op h1
    have hcl : ∀ op ∈ .close :: r.calls, op.isCloseAt = false := by
      simp only [List.mem_cons]
      rintro op (rfl | h)
      · rfl
      · exact r.calls_noCloseAt op h
    by_cases hf : n.full fl = true
    · simp only [Nest.openWith, hf, if_true] at h1
      obtain ⟨n4, os4, h4⟩ := Nest.run_total (fl := fl) (ops := k.calls ++ .close :: r.calls) (by
          simp only [List.mem_append]
          rintro op (h | h)
          · exact k.calls_noCloseAt op h
          · exact hcl op h) n
      exact ⟨n4, _, Nest.run_cons h1 h4, .inr rfl⟩
    · simp only [Nest.openWith, if_neg hf] at h1
      obtain ⟨n2, os2, h2, hk⟩ := ihk (n.addOpen d sp)
      obtain ⟨k1, k2, k3, k4⟩ | hk := hk
      · cases hst : n2.stack with
        | nil => rw [hst] at k3; simp [bare, Nest.addOpen] at k3
        | cons p st =>
          obtain ⟨x, left⟩ := p
          rw [hst] at k3
          simp only [bare, Nest.addOpen, List.map_cons, List.cons.injEq, Prod.mk.injEq] at k3
          obtain ⟨⟨q1, q2⟩, q3⟩ := k3
          let n3 : Nest α := { n2 with
              cur := left ++ Forest.single x n2.cur
              stack := Nest.growParent x.span st
              cursor := x.span.stop }
          have h3 : n2.step fl .close = some (n3, .ok .unit) := by
            simp only [Nest.step, hst]; rfl
          obtain ⟨n4, os4, h4, hr⟩ := ihr n3
          refine ⟨n4, _, Nest.run_cons h1 (Nest.run_app h2 (Nest.run_cons h3 h4)), ?_⟩
          simp only [firstErr, firstErr_append, k1]
          obtain ⟨r1, r2, r3, r4⟩ | hr := hr
          · refine .inl ⟨r1, ?_, ?_, ?_⟩
            · rw [r2]
              simp only [n3, datas_append, datas_cons, k2, q1, q2, append_assoc]
              rfl
            · rw [r3]
              show bare (Nest.growParent x.span st) = _
              rw [bare_growParent, bare, q3]
              exact bare_endParent _ _
            · rw [r4]
              show n2.count + _ = _
              rw [k4]
              simp only [Nest.addOpen]; omega
          · exact .inr hr
      · obtain ⟨n4, os4, h4⟩ := Nest.run_total (fl := fl) hcl n2
        refine ⟨n4, _, Nest.run_cons h1 (Nest.run_app h2 h4), .inr ?_⟩
        simp only [firstErr, firstErr_append, hk]
  have tokens : ∀ (d : α) (r : Lit α),
    (∀ n : Nest α, ∃ n' os, n.run fl r.calls = some (n', os) ∧
      ((firstErr os = none ∧ datas n'.cur = datas n.cur ++ r.values ∧
        bare n'.stack = bare n.stack ∧ n'.count = n.count + r.count) ∨
      firstErr os = some .overflow)) →
    ∀ (n : Nest α) (op : Op α) (n1 : Nest α) (o : Except Err Out), n.step fl op = some (n1, o) →
    (o = .error .overflow ∨ ((∃ v, o = .ok v) ∧ datas n1.cur = datas n.cur ++ .cons d .nil .nil ∧
      bare n1.stack = bare n.stack ∧ n1.count = n.count + 1)) →
    ∃ n' os, n.run fl (op :: r.calls) = some (n', os) ∧
      ((firstErr os = none ∧ datas n'.cur = datas n.cur ++ .cons d .nil r.values ∧
        bare n'.stack = bare n.stack ∧ n'.count = n.count + (1 + r.count)) ∨
      firstErr os = some .overflow) := by
    intro d r ih n op n1 o h1 ho
    obtain ⟨n2, os2, h2, hr⟩ := ih n1
    refine ⟨n2, _, Nest.run_cons h1 h2, ?_⟩
    obtain rfl | ⟨⟨v, rfl⟩, k1, k2, k3⟩ := ho
    · exact .inr rfl
    · simp only [firstErr]
      obtain ⟨r1, r2, r3, r4⟩ | hr := hr
      · refine .inl ⟨r1, ?_, r3.trans k2, by omega⟩
        rw [r2, k1, append_assoc]; rfl
      · exact .inr hr
  have tok : ∀ (n : Nest α) (d : α) (len : Nat),
    ((n.token fl d len).2 = .error .overflow ∨ ((∃ v, (n.token fl d len).2 = .ok v) ∧
      datas (n.token fl d len).1.cur = datas n.cur ++ .cons d .nil .nil ∧
      bare (n.token fl d len).1.stack = bare n.stack ∧
      (n.token fl d len).1.count = n.count + 1)) := by
    intro n d len
    unfold Nest.token
    split
    · split
      · exact .inl rfl
      · exact .inr ⟨⟨_, rfl⟩, datas_append _ _, bare_endParent _ _, rfl⟩
    · split
      · exact .inl rfl
      · simp only
        split
        · exact .inl rfl
        · exact .inr ⟨⟨_, rfl⟩, datas_append _ _, bare_endParent _ _, rfl⟩
  induction lit with
  | nil => intro n; exact ⟨n, [], rfl, .inl ⟨rfl, (append_nil _).symm, rfl, rfl⟩⟩
  | node d k r ihk ihr => intro n; exact nodes d _ k r ihk ihr n _ rfl
  | nodeWith d sp k r ihk ihr => intro n; exact nodes d _ k r ihk ihr n _ rfl
  | token d len r ih => intro n; exact tokens d r ih n _ _ _ rfl (tok n d len)
  | tokenEmpty d r ih => intro n; exact tokens d r ih n _ _ _ rfl (tok n d 0)
  | tokenWith d sp r ih =>
    intro n
    by_cases hf : n.full fl = true
    · exact tokens d r ih n _ n (.error .overflow) (by simp [Nest.step, hf]) (.inl rfl)
    · let n1 : Nest α := { n.addLeaf d sp with
        stack := Nest.growParent sp (n.addLeaf d sp).stack, cursor := sp.stop }
      have h1 : n.step fl (.tokenWith d sp) = some (n1, .ok (.id n.count)) := by
        simp only [Nest.step, if_neg hf]; rfl
      refine tokens d r ih n _ n1 _ h1 (.inr ⟨⟨_, rfl⟩, ?_, ?_, rfl⟩)
      · exact datas_append _ _
      · exact (bare_growParent _ _).trans (bare_endParent _ _)

end Syntree
