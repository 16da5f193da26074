import Verif.Proof.LooseRead

/-! `Loose` covers what `Nest` covers, and says the same about it. -/

namespace Syntree

variable {α : Type}

open Forest

/-- The state of the specification without its marks. -/
def Nest.bare (n : Nest α) : Nest α := { n with marks := [] }

theorem Nest.bare_full (fl : Flavor) (n : Nest α) : n.bare.full fl = n.full fl := rfl

theorem Nest.bare_openWith (fl : Flavor) (n : Nest α) (d : α) (sp : Span) :
    n.bare.openWith fl d sp = ((n.openWith fl d sp).1.bare, (n.openWith fl d sp).2) := by
  unfold Nest.openWith
  rw [Nest.bare_full]
  by_cases h : n.full fl = true
  · rw [if_pos h, if_pos h]
  · rw [if_neg h, if_neg h]; rfl

theorem Nest.bare_token (fl : Flavor) (n : Nest α) (d : α) (len : Nat) :
    n.bare.token fl d len = ((n.token fl d len).1.bare, (n.token fl d len).2) := by
  unfold Nest.token
  rw [Nest.bare_full, show n.bare.cursor = n.cursor from rfl]
  by_cases he : fl.ik.lenIsEmpty len = true
  · rw [if_pos he, if_pos he]
    by_cases h : n.full fl = true
    · rw [if_pos h, if_pos h]
    · rw [if_neg h, if_neg h]; rfl
  · rw [if_neg he, if_neg he]
    cases fl.ik.checkedAddLen n.cursor len with
    | none => rfl
    | some c =>
      dsimp only
      by_cases h : n.full fl = true
      · rw [if_pos h, if_pos h]; rfl
      · rw [if_neg h, if_neg h]; rfl

theorem wrapFrom_top {i pos : Nat} {new : Lab α} {F : Forest (Lab α)} (nd : F.ids.Nodup)
    (h : F.topIds[pos]? = some i) :
    F.fromId i = F.drop pos ∧ F.wrapFrom i new = F.take pos ++ single new (F.drop pos) := by
  induction F generalizing pos with
  | nil => simp at h
  | cons x k r _ ihr =>
    cases pos with
    | zero =>
      simp only [topIds_cons, List.getElem?_cons_zero, Option.some.injEq] at h
      simp only [fromId, wrapFrom, if_pos h, Forest.drop, Forest.take]
      exact ⟨trivial, rfl⟩
    | succ pos =>
      simp only [topIds_cons, List.getElem?_cons_succ] at h
      obtain ⟨n1, n2⟩ := List.nodup_cons.1 (ids_cons (x := x) (k := k) (r := r) ▸ nd)
      have hir : i ∈ r.ids := mem_ids_of_mem_topIds (List.mem_of_getElem? h)
      have hx : x.id ≠ i := by
        rintro rfl; exact n1 (List.mem_append_right _ hir)
      have hk : i ∉ k.ids := fun hm => (List.nodup_append.1 n2).2.2 i hm i hir rfl
      obtain ⟨e1, e2⟩ := ihr (List.nodup_append.1 n2).2.1 h
      simp only [fromId, wrapFrom, if_neg hx, if_neg hk, Forest.drop, Forest.take, e1, e2]
      exact ⟨trivial, rfl⟩

/-- One call. -/
theorem Loose.step_of_nest {s : Sys α} {n n' : Nest α} {m : Loose α} {o : Except Err Out}
    (fl : Flavor) (hr : Rel false s n) (hm : RelL s m) (hb : m.base = n.bare) (ht : m.tidy = true)
    (op : Op α) (hst : n.step fl op = some (n', o)) :
    ∃ m', m.step fl op = some (m', o) ∧ m'.base = n'.bare ∧ m'.tidy = true := by
  have hfull : m.base.full fl = n.full fl := by rw [hb]; rfl
  have hframe : m.base.frame = n.frame := by rw [hb]; rfl
  have closeAt : ∀ (k : Nat) (d : α) (ex : Option Span), n.closeAt fl k d ex = some (n', o) →
      ∃ m', m.closeAt fl k d ex = some (m', o) ∧ m'.base = n'.bare ∧ m'.tidy = true := by
    intro k d ex h
    unfold Nest.closeAt at h
    unfold Loose.closeAt
    have hl : n.marks.length = m.places.length := hr.marks.len.symm.trans hm.places.len
    cases hk : n.marks[k]? with
    | none =>
      rw [hk] at h
      simp only [Option.some.injEq] at h
      obtain ⟨rfl, rfl⟩ := Prod.mk.inj h
      have : m.places[k]? = none := by
        rw [List.getElem?_eq_none_iff] at hk ⊢; omega
      rw [this]
      exact ⟨m, rfl, hb, ht⟩
    | some mk =>
      rw [hk] at h
      simp only at h
      have hlt := (List.getElem?_eq_some_iff.1 hk).1
      obtain ⟨p, hp⟩ : ∃ p, m.places[k]? = some p :=
        ⟨_, List.getElem?_eq_getElem (by omega)⟩
      obtain ⟨c, hc⟩ : ∃ c, s.handles[k]? = some c :=
        ⟨_, List.getElem?_eq_getElem (by rw [hr.marks.len]; exact hlt)⟩
      obtain ⟨cell, c1, c2, c3, c4, c5⟩ := hr.marks.cell k c mk hc hk
      have d1 := hm.places.cell k c p hc hp
      rw [c1] at d1
      simp only [Option.some.injEq] at d1
      subst d1
      simp only at c2 c3
      rw [hp]
      simp only [hfull, hframe]
      rw [c2]
      by_cases hf : mk.frame ≠ n.frame
      · rw [if_pos hf] at h
        rw [if_pos hf]
        simp only [Option.some.injEq] at h
        obtain ⟨rfl, rfl⟩ := Prod.mk.inj h
        exact ⟨m, rfl, hb, ht⟩
      · rw [if_neg hf] at h
        rw [if_neg hf]
        have hf' : mk.frame = n.frame := Decidable.not_not.1 hf
        by_cases hfu : n.full fl = true
        · rw [if_pos hfu] at h
          rw [if_pos hfu]
          simp only [Option.some.injEq] at h
          obtain ⟨rfl, rfl⟩ := Prod.mk.inj h
          exact ⟨m, rfl, hb, ht⟩
        · rw [if_neg hfu] at h
          rw [if_neg hfu]
          cases hlive : mk.live with
          | false => rw [hlive] at h; simp at h
          | true =>
            rw [hlive] at h
            simp only [Bool.not_true, Bool.false_eq_true, if_false, Option.some.injEq] at h
            obtain ⟨rfl, rfl⟩ := Prod.mk.inj h
            have hcnt : m.base.count = n.count := by rw [hb]; rfl
            have hcur : m.base.cur = n.cur := by rw [hb]; rfl
            have hsl := c3 hlive _ (by rw [hf']; exact slots_self _ _)
            have hnd : n.cur.ids.Nodup := (List.nodup_append.1 hr.tree.nodup).1
            by_cases hpos : mk.pos < n.cur.topIds.length
            · rw [List.getElem?_append_left hpos] at hsl
              have hmem := List.mem_of_getElem? hsl
              have hne : p.node ≠ n.count := by
                have := hr.tree.lt (List.mem_append_left _ (mem_ids_of_mem_topIds hmem))
                omega
              have hdrop : (n.cur.drop mk.pos).isNil = false := by
                cases hd : n.cur.drop mk.pos with
                | nil =>
                  exfalso
                  have h1 : (n.cur.drop mk.pos).tops = [] := by rw [hd]; rfl
                  rw [tops_drop, List.drop_eq_nil_iff, ← topIds_length] at h1
                  omega
                | cons x k r => rfl
              rw [hcnt, if_neg hne]
              refine ⟨_, rfl, ?_, ?_⟩
              · obtain ⟨e1, e2⟩ := wrapFrom_top
                  (new := ⟨n.count, d, ex.getD (Nest.stretch (n.cur.drop mk.pos))⟩) hnd hsl
                simp only [Loose.wrapAt, Nest.wrap, hdrop, hb, Nest.bare, e1]
                rw [e2]
                rfl
              · simp only [Loose.wrapAt, hcur]
                exact decide_eq_true hmem
            · have hpos' : n.cur.topIds.length ≤ mk.pos := by omega
              rw [List.getElem?_append_right hpos'] at hsl
              have h0 := (List.getElem?_eq_some_iff.1 hsl).1
              simp only [List.length_singleton, Nat.lt_one_iff] at h0
              rw [h0] at hsl
              have hnode : p.node = n.count := by simpa using hsl.symm
              have hdrop : (n.cur.drop mk.pos).isNil = true := by
                have h1 : (n.cur.drop mk.pos).tops = [] := by
                  rw [tops_drop, List.drop_eq_nil_iff, ← topIds_length]; exact hpos'
                cases hd : n.cur.drop mk.pos with
                | nil => rfl
                | cons x k r => rw [hd] at h1; simp at h1
              rw [hcnt, if_pos hnode, if_pos ht]
              refine ⟨_, rfl, ?_, ht⟩
              simp only [Nest.wrap, hdrop, if_true, hb]
              rfl
  have tidy : ∀ {op : Op α} {n1 : Nest α}, m.base.step fl op = some (n1, o) → n1 = n'.bare →
      ∃ m', (if m.tidy = true then (m.base.step fl op).map
        fun r => ((⟨r.1, m.places, true⟩ : Loose α), r.2) else none) = some (m', o) ∧
        m'.base = n'.bare ∧ m'.tidy = true := by
    intro op n1 h1 h2
    rw [if_pos ht, h1]
    exact ⟨_, rfl, h2, rfl⟩
  cases op with
  | «open» d =>
    simp only [Nest.step, Option.some.injEq] at hst
    refine tidy (n1 := n'.bare) ?_ rfl
    simp only [Nest.step, hb]
    rw [Nest.bare_openWith]
    show some ((n.openWith fl d (Span.point n.cursor)).1.bare, _) = _
    rw [show n.bare.cursor = n.cursor from rfl, hst]
  | openWith d sp =>
    simp only [Nest.step, Option.some.injEq] at hst
    refine tidy (n1 := n'.bare) ?_ rfl
    simp only [Nest.step, hb]
    rw [Nest.bare_openWith, hst]
  | close =>
    have h1 : m.base.step fl .close = some (n'.bare, o) := by
      simp only [Nest.step, Option.some.injEq] at hst ⊢
      rw [hb, show n.bare.stack = n.stack from rfl]
      cases hs : n.stack with
      | nil =>
        rw [hs] at hst
        obtain ⟨rfl, rfl⟩ := Prod.mk.inj hst
        rfl
      | cons q st =>
        obtain ⟨x, left⟩ := q
        rw [hs] at hst
        obtain ⟨rfl, rfl⟩ := Prod.mk.inj hst
        rfl
    simp only [Loose.step, h1, Option.map_some]
    exact ⟨_, rfl, rfl, by simp [ht]⟩
  | token d len =>
    simp only [Nest.step, Option.some.injEq] at hst
    refine tidy (n1 := n'.bare) ?_ rfl
    simp only [Nest.step, hb]
    rw [Nest.bare_token, hst]
  | tokenEmpty d =>
    simp only [Nest.step, Option.some.injEq] at hst
    refine tidy (n1 := n'.bare) ?_ rfl
    simp only [Nest.step, hb]
    rw [Nest.bare_token, hst]
  | tokenWith d sp =>
    simp only [Nest.step, Option.some.injEq] at hst
    refine tidy (n1 := n'.bare) ?_ rfl
    simp only [Nest.step, hb]
    rw [show n.bare.full fl = n.full fl from rfl]
    by_cases hf : n.full fl = true
    · rw [if_pos hf] at hst ⊢
      obtain ⟨rfl, rfl⟩ := Prod.mk.inj hst
      rfl
    · rw [if_neg hf] at hst ⊢
      obtain ⟨rfl, rfl⟩ := Prod.mk.inj hst
      rfl
  | checkpoint =>
    have hl : n.marks.length = m.places.length := hr.marks.len.symm.trans hm.places.len
    simp only [Nest.step, Option.some.injEq] at hst
    simp only [Loose.step, hfull]
    by_cases hf : n.full fl = true
    · rw [if_pos hf] at hst
      rw [if_pos hf]
      obtain ⟨rfl, rfl⟩ := Prod.mk.inj hst
      exact ⟨m, rfl, hb, ht⟩
    · rw [if_neg hf] at hst
      rw [if_neg hf]
      obtain ⟨rfl, rfl⟩ := Prod.mk.inj hst
      rw [hl]
      exact ⟨_, rfl, hb, ht⟩
  | closeAt k d => exact closeAt k d none hst
  | closeAtWith k d sp => exact closeAt k d (some sp) hst
  | setCursor i =>
    simp only [Nest.step, Option.some.injEq] at hst
    obtain ⟨rfl, rfl⟩ := Prod.mk.inj hst
    refine ⟨_, rfl, ?_, ht⟩
    show { m.base with cursor := i } = _
    rw [hb]; rfl

/-- A whole history. -/
theorem Loose.run_of_nest {s : Sys α} {n n' : Nest α} {m : Loose α} {os : List (Except Err Out)}
    (fl : Flavor) (hr : Rel false s n) (hm : RelL s m) (hb : m.base = n.bare) (ht : m.tidy = true)
    (ops : List (Op α)) (hst : n.run fl ops = some (n', os)) :
    ∃ m', m.run fl ops = some (m', os) ∧ m'.base = n'.bare ∧ m'.tidy = true := by
  induction ops generalizing s n m os with
  | nil =>
    simp only [Nest.run, Option.some.injEq] at hst
    obtain ⟨rfl, rfl⟩ := Prod.mk.inj hst
    exact ⟨m, rfl, hb, ht⟩
  | cons op ops ih =>
    simp only [Nest.run] at hst
    cases h1 : n.step fl op with
    | none => rw [h1] at hst; simp at hst
    | some r =>
      obtain ⟨n1, o1⟩ := r
      rw [h1] at hst
      simp only at hst
      cases h2 : n1.run fl ops with
      | none => rw [h2] at hst; simp at hst
      | some r2 =>
        obtain ⟨n2, os2⟩ := r2
        rw [h2] at hst
        simp only [Option.some.injEq] at hst
        obtain ⟨rfl, rfl⟩ := Prod.mk.inj hst
        obtain ⟨m1, f1, f2, f3⟩ := Loose.step_of_nest fl hr hm hb ht op h1
        obtain ⟨s1, e1, r1⟩ := hr.step (g' := false) fl op h1 (by simp)
        obtain ⟨s1', e1', r1'⟩ := hm.step fl op f1
        rw [e1] at e1'
        obtain ⟨rfl, _⟩ := Prod.mk.inj e1'
        obtain ⟨m2, g1, g2, g3⟩ := ih r1 r1' f2 f3 h2
        exact ⟨m2, by simp only [Loose.run, f1, g1], g2, g3⟩

end Syntree
