import Verif.Proof.Levels
import Verif.Proof.Listing
import Verif.Proof.Outcome

/-! Facts about checkpoints along a history. -/

namespace Syntree

variable {α : Type} {fl : Flavor}

open Forest

/-- What a call does to the list of marks. -/
theorem Did.marks_cases {n n' : Nest α} {op : Op α} {o : Except Err Out} (h : Did fl n op n' o) :
    n'.marks = n.marks ∨ n'.marks = n.marks ++ [⟨n.frame, n.cur.width, true⟩] ∨
    ∃ p, n'.marks = n.marks.map fun m =>
      if m.frame = n.frame ∧ p < m.pos then { m with live := false } else m := by
  cases h with
  | fail _ _ => exact .inl rfl
  | lost _ _ _ _ _ _ => exact .inl rfl
  | noHandle _ => exact .inl rfl
  | setCursor _ => exact .inl rfl
  | mark _ => exact .inr (.inl rfl)
  | opened _ _ _ _ _ => exact .inl rfl
  | emptyTok _ _ _ _ => exact .inl rfl
  | tok _ _ _ _ _ _ => exact .inl rfl
  | tokWith _ _ _ => exact .inl rfl
  | closed _ _ _ _ => exact .inl rfl
  | wrapped _ k d e m _ _ _ _ _ =>
    unfold Nest.wrap
    split
    · exact .inl rfl
    · exact .inr (.inr ⟨m.pos, rfl⟩)

theorem frame_eq_head (n : Nest α) : n.frame = n.stack.head?.map (·.1.id) := rfl

theorem Begins.width {P : Forest (Lab α)} {n : Nest α} (h : Begins P n.frame n) :
    P.width ≤ n.cur.width := by
  obtain ⟨R, hR⟩ := h n.cur (level_self _ _)
  rw [hR]; simp

/-- Later checkpoints do not touch what is before them. -/
theorem Reach.begins_newer {n1 n2 : Nest α} {P : Forest (Lab α)} {f : Option Nat}
    {mid : List (Op α)} {os : List (Except Err Out)} (hr : Reach fl n1) (hb : Begins P f n1)
    (hf : ∀ i, f = some i → i < n1.count)
    (hnew : ∀ op ∈ mid, ∀ k d e, UsesAt op k d e → n1.marks.length ≤ k)
    (h : n1.run fl mid = some (n2, os)) : Begins P f n2 := by
  have key := hr.run_induct h (P := fun n => Begins P f n ∧ n1.count ≤ n.count ∧
      n1.marks.length ≤ n.marks.length ∧
      ∀ k m, n1.marks.length ≤ k → n.marks[k]? = some m → m.frame = f → P.width ≤ m.pos)
    ⟨hb, Nat.le_refl _, Nat.le_refl _, ?_⟩ ?_
  · exact key.1
  · intro k m hk hm
    rw [List.getElem?_eq_none hk] at hm; simp at hm
  · rintro n op n' o hop hr' ⟨hb', hc, hlen, hpos⟩ hs
    have hd := Nest.step_did hs
    refine ⟨hb'.did hd (fun i hi => Nat.lt_of_lt_of_le (hf i hi) hc) hr'.nodup ?_,
      Nat.le_trans hc hd.count_le, ?_, ?_⟩
    · rintro k m hm ⟨d, e, hu⟩ _ hfr hfr'
      exact .inl (hpos k m (hnew op hop k d e hu) hm (hfr.trans hfr'))
    · rcases hd.marks_cases with e | e | ⟨p, e⟩ <;> rw [e] <;> (try simp) <;> omega
    · intro k m hk hm hmf
      rcases hd.marks_cases with e | e | ⟨p, e⟩
      · rw [e] at hm; exact hpos k m hk hm hmf
      · rw [e] at hm
        by_cases hlt : k < n.marks.length
        · rw [List.getElem?_append_left hlt] at hm; exact hpos k m hk hm hmf
        · rw [List.getElem?_append_right (by omega)] at hm
          have : k - n.marks.length = 0 := by
            have := (List.getElem?_eq_some_iff.1 hm).1
            simpa using this
          rw [this] at hm
          simp only [List.getElem?_cons_zero, Option.some.injEq] at hm
          subst hm
          simp only at hmf ⊢
          subst hmf
          exact hb'.width
      · rw [e, List.getElem?_map] at hm
        cases hm0 : n.marks[k]? with
        | none => rw [hm0] at hm; simp at hm
        | some m0 =>
          rw [hm0] at hm
          simp only [Option.map_some, Option.some.injEq] at hm
          have hp := hpos k m0 hk hm0
          subst hm
          by_cases hcnd : m0.frame = n.frame ∧ p < m0.pos
          · rw [if_pos hcnd] at hmf ⊢; exact hp hmf
          · rw [if_neg hcnd] at hmf ⊢; exact hp hmf

/-- The context that closing all open nodes puts around the innermost level. -/
def closeCtx : Nat → Stack α → Ctx (Lab α)
  | 0, _ => []
  | _, [] => []
  | m + 1, (x, left) :: st => (left, x, .nil) :: closeCtx m (Nest.growParent x.span st)

theorem run_closes (m : Nat) {n n' : Nest α} {os : List (Except Err Out)}
    (h : n.run fl (List.replicate m .close) = some (n', os)) (hs : n'.stack = []) :
    n'.cur = (closeCtx m n.stack).plug n.cur := by
  induction m generalizing n os with
  | zero =>
    simp only [List.replicate_zero, Nest.run, Option.some.injEq, Prod.mk.injEq] at h
    obtain ⟨rfl, rfl⟩ := h
    rfl
  | succ m ih =>
    simp only [List.replicate_succ, Nest.run] at h
    cases h1 : n.step fl .close with
    | none => rw [h1] at h; simp at h
    | some r =>
      obtain ⟨n1, o⟩ := r
      rw [h1] at h
      simp only at h
      cases h2 : n1.run fl (List.replicate m .close) with
      | none => rw [h2] at h; simp at h
      | some r2 =>
        obtain ⟨n2, os2⟩ := r2
        rw [h2] at h
        simp only [Option.some.injEq, Prod.mk.injEq] at h
        obtain ⟨rfl, rfl⟩ := h
        have := ih h2
        simp only [Nest.step, Option.some.injEq] at h1
        cases hst : n.stack with
        | nil =>
          rw [hst] at h1; simp only [Prod.mk.injEq] at h1
          obtain ⟨rfl, _⟩ := h1
          rw [this, hst]
          cases m <;> rfl
        | cons p st =>
          obtain ⟨x, left⟩ := p
          rw [hst] at h1; simp only [Prod.mk.injEq] at h1
          obtain ⟨rfl, _⟩ := h1
          rw [this]; rfl

/-- Forget the spans of the nodes around the hole. -/
def Ctx.bare (c : Ctx (Lab α)) : List (Forest (Lab α) × Nat × α × Forest (Lab α)) :=
  c.map fun p => (p.1, p.2.1.id, p.2.1.data, p.2.2)

theorem closeCtx_bare (m : Nat) (st st' : Stack α)
    (h : st.map (fun p => (p.1.id, p.1.data, p.2)) = st'.map (fun p => (p.1.id, p.1.data, p.2))) :
    (closeCtx m st).bare = (closeCtx m st').bare := by
  induction m generalizing st st' with
  | zero => rfl
  | succ m ih =>
    cases st with
    | nil =>
      cases st' with
      | nil => rfl
      | cons p' st' => simp at h
    | cons p st =>
      obtain ⟨x, l⟩ := p
      cases st' with
      | nil => simp at h
      | cons p' st' =>
        obtain ⟨x', l'⟩ := p'
        simp only [List.map_cons, List.cons.injEq, Prod.mk.injEq] at h
        obtain ⟨⟨h1, h2, h3⟩, h4⟩ := h
        simp only [closeCtx, Ctx.bare, List.map_cons, h1, h2, h3, List.cons.injEq, true_and]
        apply ih
        have hg : ∀ (sp : Span) (st : Stack α),
            (Nest.growParent sp st).map (fun p => (p.1.id, p.1.data, p.2)) =
              st.map (fun p => (p.1.id, p.1.data, p.2)) := by
          intro sp st; cases st <;> rfl
        rw [hg, hg, h4]

theorem endParent_bare (stop : Nat) (st : Stack α) :
    (Nest.endParent stop st).map (fun p => (p.1.id, p.1.data, p.2)) =
      st.map (fun p => (p.1.id, p.1.data, p.2)) := by
  cases st <;> rfl

theorem drop_width (P R : Forest (Lab α)) : (P ++ R).drop P.width = R := by
  rw [drop_append_ge _ _ _ (Nat.le_refl _), Nat.sub_self]; rfl

theorem take_width (P R : Forest (Lab α)) : (P ++ R).take P.width = P := by
  rw [take_append_ge _ _ _ (Nat.le_refl _), Nat.sub_self]; simp [take]

/-- A step that uses a checkpoint and returns an id. -/
theorem Nest.step_uses {n n' : Nest α} {op : Op α} {k : Nat} {d : α} {e : Option Span} {i : Nat}
    (hu : UsesAt op k d e) (h : n.step fl op = some (n', .ok (.id i))) :
    ∃ m, n.marks[k]? = some m ∧ m.frame = n.frame ∧ m.live = true ∧ n.full fl = false ∧
      n' = n.wrap m.pos d e ∧ i = n.count := by
  have hc : n.closeAt fl k d e = some (n', .ok (.id i)) := by
    cases hu <;> exact h
  unfold Nest.closeAt at hc
  cases hm : n.marks[k]? with
  | none => rw [hm] at hc; simp at hc
  | some m =>
    rw [hm] at hc
    simp only at hc
    by_cases hfr : m.frame ≠ n.frame
    · rw [if_pos hfr] at hc; simp at hc
    · rw [if_neg hfr] at hc
      cases hf : n.full fl with
      | true => rw [hf] at hc; simp at hc
      | false =>
        rw [hf] at hc
        cases hl : m.live with
        | false => rw [hl] at hc; simp at hc
        | true =>
          rw [hl] at hc
          simp only [Bool.false_eq_true, if_false, Bool.not_true, Option.some.injEq, Prod.mk.injEq,
            Except.ok.injEq, Out.id.injEq] at hc
          exact ⟨m, rfl, Decidable.not_not.1 hfr, hl, rfl, hc.1.symm, hc.2.symm⟩

/-- The effect of a wrap at the end of the prefix `P`. -/
theorem Nest.wrap_prefix (n : Nest α) (P new : Forest (Lab α)) (hc : n.cur = P ++ new) (d : α)
    (e : Option Span) :
    (n.wrap P.width d e).cur = P ++ Forest.single ⟨n.count, d,
      e.getD (if new.isNil then Span.point n.cursor else Nest.stretch new)⟩ new ∧
    (n.wrap P.width d e).cursor = n.cursor ∧
    (n.wrap P.width d e).stack.map (fun p => (p.1.id, p.1.data, p.2)) =
      n.stack.map (fun p => (p.1.id, p.1.data, p.2)) ∧
    (new ≠ .nil → (n.wrap P.width d e).stack = n.stack) := by
  have hd : n.cur.drop P.width = new := by rw [hc, drop_width]
  have ht : n.cur.take P.width = P := by rw [hc, take_width]
  unfold Nest.wrap
  rw [hd, ht]
  cases new with
  | nil =>
    refine ⟨?_, rfl, endParent_bare _ _, fun h => absurd rfl h⟩
    simp only [isNil_nil, if_true, Nest.addLeaf]
    rw [hc]; simp
  | cons x k r =>
    refine ⟨rfl, rfl, rfl, fun _ => rfl⟩

/-- From taking a checkpoint to a later moment. -/
theorem Reach.taken {n1 n1' n2 : Nest α} {k : Nat} {mid : List (Op α)}
    {os : List (Except Err Out)} (hr : Reach fl n1)
    (hk : n1.step fl .checkpoint = some (n1', .ok (.handle k)))
    (h2 : n1'.run fl mid = some (n2, os)) :
    k = n1.marks.length ∧ Reach fl n1' ∧
    n1' = { n1 with marks := n1.marks ++ [⟨n1.frame, n1.cur.width, true⟩] } ∧
    ∃ m, n2.marks[k]? = some m ∧ m.frame = n1.frame ∧ m.pos = n1.cur.width ∧
      (m.live = true → Begins n1.cur n1.frame n2) := by
  have hd : k = n1.marks.length ∧
      n1' = { n1 with marks := n1.marks ++ [⟨n1.frame, n1.cur.width, true⟩] } := by
    simp only [Nest.step, Option.some.injEq] at hk
    cases hf : n1.full fl with
    | true => rw [hf] at hk; simp at hk
    | false =>
      rw [hf] at hk
      simp only [Bool.false_eq_true, if_false, Prod.mk.injEq, Except.ok.injEq,
        Out.handle.injEq] at hk
      exact ⟨hk.2.symm, hk.1.symm⟩
  obtain ⟨rfl, rfl⟩ := hd
  refine ⟨rfl, hr.step hk, rfl, ?_⟩
  obtain ⟨m', hm', e1, e2, _, hb⟩ := (hr.step hk).since (k := n1.marks.length)
    (m := ⟨n1.frame, n1.cur.width, true⟩) (by simp) (fun i hi => hr.frame_lt hi)
    (P := n1.cur) rfl (fun _ => by
      intro L hL
      have := level_self n1.cur n1.stack
      rw [← frame_eq_head] at this
      exact ⟨.nil, by simpa using (Option.some.inj (this.symm.trans hL)).symm⟩) h2
  exact ⟨m', hm', e1, e2, hb⟩

/-! ## The nodes being built -/

theorem openIds_append (st : List Nat) (ops ops' : List (Op α)) (os os' : List (Except Err Out))
    (h : os.length = ops.length) :
    openIds st (ops ++ ops') (os ++ os') = openIds (openIds st ops os) ops' os' := by
  induction ops generalizing st os with
  | nil =>
    cases os with
    | nil => rfl
    | cons o os => simp at h
  | cons op ops ih =>
    cases os with
    | nil => simp at h
    | cons o os => exact ih _ _ (by simpa using h)

theorem map_endParent_id (stop : Nat) (st : Stack α) :
    (Nest.endParent stop st).map (·.1.id) = st.map (·.1.id) := by cases st <;> rfl

theorem map_growParent_id (sp : Span) (st : Stack α) :
    (Nest.growParent sp st).map (·.1.id) = st.map (·.1.id) := by cases st <;> rfl

theorem openAfter_error (st : List Nat) (op : Op α) (e : Err) : openAfter st op (.error e) = st := by
  cases op <;> rfl

theorem Nest.step_open {n n' : Nest α} {op : Op α} {o : Except Err Out}
    (h : n.step fl op = some (n', o)) :
    n'.stack.map (·.1.id) = openAfter (n.stack.map (·.1.id)) op o := by
  cases op with
  | «open» d =>
    simp only [Nest.step, Nest.openWith, Option.some.injEq] at h
    split at h <;> simp only [Prod.mk.injEq] at h <;> obtain ⟨rfl, rfl⟩ := h
    · rfl
    · simp [openAfter, Nest.addOpen, map_endParent_id]
  | openWith d sp =>
    simp only [Nest.step, Nest.openWith, Option.some.injEq] at h
    split at h <;> simp only [Prod.mk.injEq] at h <;> obtain ⟨rfl, rfl⟩ := h
    · rfl
    · simp [openAfter, Nest.addOpen, map_endParent_id]
  | close =>
    simp only [Nest.step, Option.some.injEq] at h
    cases hs : n.stack with
    | nil => rw [hs] at h; simp at h; obtain ⟨rfl, rfl⟩ := h; simp [openAfter, hs]
    | cons p st =>
      obtain ⟨x, left⟩ := p
      rw [hs] at h; simp at h; obtain ⟨rfl, rfl⟩ := h
      simp [openAfter, map_growParent_id]
  | token d len =>
    simp only [Nest.step, Option.some.injEq] at h
    have hd := Nest.token_did h
    cases hd with
    | fail _ _ => rw [openAfter_error]
    | lost _ _ _ _ _ _ => rfl
    | noHandle _ => rfl
    | opened _ _ _ hop _ => rcases hop with ⟨h, _⟩ | h <;> simp at h
    | emptyTok _ _ _ _ => simp [openAfter, Nest.addLeaf, map_endParent_id]
    | tok _ _ _ _ _ _ => simp [openAfter, Nest.addLeaf, map_endParent_id]
    | wrapped _ _ _ _ _ hop _ _ _ _ => rcases hop with ⟨h, _⟩ | ⟨_, h, _⟩ <;> simp at h
  | tokenEmpty d =>
    simp only [Nest.step, Option.some.injEq] at h
    have hd := Nest.token_did h
    have : openAfter (n.stack.map (·.1.id)) (.tokenEmpty d) o =
        openAfter (n.stack.map (·.1.id)) (.token d 0) o := rfl
    rw [this]
    cases hd with
    | fail _ _ => rw [openAfter_error]
    | lost _ _ _ _ _ _ => rfl
    | noHandle _ => rfl
    | opened _ _ _ hop _ => rcases hop with ⟨h, _⟩ | h <;> simp at h
    | emptyTok _ _ _ _ => simp [openAfter, Nest.addLeaf, map_endParent_id]
    | tok _ _ _ _ _ _ => simp [openAfter, Nest.addLeaf, map_endParent_id]
    | wrapped _ _ _ _ _ hop _ _ _ _ => rcases hop with ⟨h, _⟩ | ⟨_, h, _⟩ <;> simp at h
  | tokenWith d sp =>
    simp only [Nest.step, Option.some.injEq] at h
    split at h <;> simp only [Prod.mk.injEq] at h <;> obtain ⟨rfl, rfl⟩ := h
    · rfl
    · simp [openAfter, Nest.addLeaf, map_growParent_id, map_endParent_id]
  | checkpoint =>
    simp only [Nest.step, Option.some.injEq] at h
    split at h <;> simp only [Prod.mk.injEq] at h <;> obtain ⟨rfl, rfl⟩ := h <;> rfl
  | closeAt k d =>
    have hd := Nest.closeAt_did (op := .closeAt k d) h (.inl ⟨rfl, rfl⟩)
    cases hd with
    | fail _ _ => rw [openAfter_error]
    | noHandle _ => rfl
    | opened _ _ _ hop _ => rcases hop with ⟨h, _⟩ | h <;> simp at h
    | emptyTok _ _ hop _ => rcases hop with ⟨_, h, _⟩ | h <;> simp at h
    | wrapped _ _ _ _ m _ _ _ _ _ =>
      unfold Nest.wrap; split <;> simp [openAfter, Nest.addLeaf, map_endParent_id]
  | closeAtWith k d sp =>
    have hd := Nest.closeAt_did (op := .closeAtWith k d sp) h (.inr ⟨_, rfl, rfl⟩)
    cases hd with
    | fail _ _ => rw [openAfter_error]
    | noHandle _ => rfl
    | opened _ _ _ hop _ => rcases hop with ⟨h, _⟩ | h <;> simp at h
    | emptyTok _ _ hop _ => rcases hop with ⟨_, h, _⟩ | h <;> simp at h
    | wrapped _ _ _ _ m _ _ _ _ _ =>
      unfold Nest.wrap; split <;> simp [openAfter, Nest.addLeaf, map_endParent_id]
  | setCursor i =>
    simp only [Nest.step, Option.some.injEq, Prod.mk.injEq] at h
    obtain ⟨rfl, rfl⟩ := h; rfl

theorem Nest.run_open {n n' : Nest α} {ops : List (Op α)} {os : List (Except Err Out)}
    (h : n.run fl ops = some (n', os)) :
    n'.stack.map (·.1.id) = openIds (n.stack.map (·.1.id)) ops os := by
  refine Nest.run_induct (n0 := n) (fl := fl)
    (P := fun ops n' os => n'.stack.map (·.1.id) = openIds (n.stack.map (·.1.id)) ops os)
    rfl ?_ ops n' os h
  intro ops n1 os op n2 o hrun ih hst
  rw [openIds_append _ _ _ _ _ (Nest.run_length hrun), ← ih]
  exact Nest.step_open hst

theorem building_eq {ops : List (Op α)} {n : Nest α} {os : List (Except Err Out)}
    (h : Nest.init.run fl ops = some (n, os)) : building fl ops = n.frame := by
  unfold building
  rw [run_results h]
  have := Nest.run_open h
  simp only [Nest.init, List.map_nil] at this
  rw [← this, Nest.frame, List.head?_map]

end Syntree
