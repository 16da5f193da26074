import Verif.Proof.Places

/-! The builder refines `Loose`. -/

namespace Syntree

variable {α : Type}

open Forest

structure RelL (s : Sys α) (n : Loose α) : Prop where
  base : RelB s n.base
  sib : n.tidy = true → s.b.sibling = n.base.cur.lastId
  places : PInv s.cells s.handles s.b.checkpoint n.base n.places

theorem RelL.init : RelL (Sys.init : Sys α) Loose.init :=
  ⟨⟨⟨trivial, ⟨rfl, LastOn.nil⟩, by simp [Loose.init, Nest.init, stackIds], rfl⟩, rfl, rfl, rfl⟩,
    fun _ => rfl, PInv.init⟩

theorem RelB.frame_lt {s : Sys α} {n : Nest α} (h : RelB s n) {f : Nat} (hf : n.frame = some f) :
    f < n.count :=
  h.tree.lt (List.mem_append_right _ (parOf_mem hf))

theorem RelL.checkpoint {s : Sys α} {n : Loose α} (h : RelL s n) (fl : Flavor)
    (n' : Loose α) (o : Except Err Out) (hst : n.step fl .checkpoint = some (n', o)) :
    ∃ s', s.step fl .checkpoint = (s', o) ∧ RelL s' n' := by
  simp only [Loose.step, Option.some.injEq] at hst
  simp only [Sys.step, Builder.mkCheckpoint, Tree.len, h.base.tree.len]
  rw [ptrNew_eq]
  by_cases hc : n.base.count < 2 ^ fl.width - 1
  · have hnf : ¬ (n.base.full fl = true) := not_full_iff.2 hc
    rw [if_neg hnf] at hst
    obtain ⟨rfl, rfl⟩ := Prod.mk.inj hst
    rw [if_pos hc]
    simp only
    have nd : (stackIds n.base.stack).Nodup := (List.nodup_append.1 h.base.tree.nodup).2.1
    have hlen := h.places.len
    have fresh : (∀ p ∈ n.places, p.born ≠ (n.base.count, n.base.frame)) →
        RelL ⟨{ s.b with checkpoint := some s.cells.length },
          s.cells ++ [⟨n.base.count, s.b.parent⟩], s.handles ++ [s.cells.length]⟩
          { n with places := n.places ++
            [⟨(n.base.count, n.base.frame), n.base.count, n.base.frame⟩] } := by
      intro hno
      refine ⟨⟨h.base.tree, h.base.parent, h.base.cursor, h.base.span⟩, h.sib, ?_⟩
      rw [h.base.parent]
      exact h.places.taken nd (fun f hf => h.base.frame_lt hf) hno
    have exact_of : ∀ p ∈ n.places, p.born = (n.base.count, n.base.frame) →
        p.node = n.base.count ∧ p.level = n.base.frame := by
      intro p hp hb
      have h1 := h.places.bound p hp
      have hb1 : p.born.1 = n.base.count := by rw [hb]
      have hb2 : p.born.2 = n.base.frame := by rw [hb]
      rcases h.places.fresh p hp with h2 | h2
      · exact ⟨h2.1.trans hb1, h2.2.trans hb2⟩
      · omega
    have handle_of : ∀ {k : Nat} {p : Place}, n.places[k]? = some p →
        ∃ c, s.handles[k]? = some c := by
      intro k p hp
      have hlt : k < s.handles.length := hlen ▸ (List.getElem?_eq_some_iff.1 hp).1
      exact ⟨_, List.getElem?_eq_getElem hlt⟩
    cases hck : s.b.checkpoint with
    | none =>
      simp only
      refine ⟨_, by rw [hlen], fresh ?_⟩
      intro p hp hb
      obtain ⟨k, hk⟩ := List.getElem?_of_mem hp
      obtain ⟨c, hc⟩ := handle_of hk
      have := h.places.cached k c p hc hk hb
      rw [hck] at this; simp at this
    | some c =>
      simp only
      obtain ⟨k0, hk0⟩ := h.places.ckOk c hck
      have hlt : k0 < n.places.length := hlen ▸ (List.getElem?_eq_some_iff.1 hk0).1
      obtain ⟨p0, hp0⟩ : ∃ p, n.places[k0]? = some p := ⟨_, List.getElem?_eq_getElem hlt⟩
      have c1 := h.places.cell k0 c p0 hk0 hp0
      rw [c1]
      simp only
      by_cases hcond : p0.node = n.base.count ∧ p0.level = s.b.parent
      · rw [if_pos hcond]
        have hmem := List.mem_of_getElem? hp0
        have hp0' : p0 = ⟨(n.base.count, n.base.frame), n.base.count, n.base.frame⟩ := by
          rcases h.places.fresh p0 hmem with h2 | h2
          · obtain ⟨⟨a, b⟩, c, d⟩ := p0
            simp only at h2 hcond
            have hd : d = n.base.frame := hcond.2.trans h.base.parent
            rw [← h2.1, ← h2.2, hcond.1, hd]
          · omega
        refine ⟨⟨s.b, s.cells, s.handles ++ [c]⟩, by rw [hlen],
          ⟨h.base.tree, h.base.parent, h.base.cursor, h.base.span⟩, h.sib, ?_⟩
        exact h.places.again hck hk0 hp0 hp0'
      · rw [if_neg hcond]
        refine ⟨_, by rw [hlen], fresh ?_⟩
        intro p hp hb
        obtain ⟨k, hk⟩ := List.getElem?_of_mem hp
        obtain ⟨c', hc'⟩ := handle_of hk
        have hcc := h.places.cached k c' p hc' hk hb
        rw [hck] at hcc
        simp only [Option.some.injEq] at hcc
        subst hcc
        have d1 := h.places.cell k c p hc' hk
        rw [c1] at d1
        simp only [Option.some.injEq, Cell.mk.injEq] at d1
        obtain ⟨e1, e2⟩ := exact_of p hp hb
        exact hcond ⟨d1.1.trans e1, d1.2.trans (e2.trans h.base.parent.symm)⟩
  · have hf : n.base.full fl = true := full_iff.2 hc
    rw [if_pos hf] at hst
    obtain ⟨rfl, rfl⟩ := Prod.mk.inj hst
    rw [if_neg hc]
    exact ⟨s, rfl, h⟩

theorem lastId_wrapFrom {i : Nat} {new : Lab α} {F : Forest (Lab α)} (nd : F.ids.Nodup)
    (hi : i ∈ F.topIds) : (F.wrapFrom i new).lastId = some new.id := by
  induction F with
  | nil => simp at hi
  | cons x k r ihk ihr =>
    simp only [wrapFrom]
    by_cases he : x.id = i
    · rw [if_pos he]; rfl
    · rw [if_neg he]
      have hir : i ∈ r.topIds := by
        simp only [topIds_cons, List.mem_cons] at hi
        rcases hi with hi | hi
        · exact absurd hi.symm he
        · exact hi
      have hik : i ∉ k.ids := by
        intro hm
        simp only [ids_cons] at nd
        have nd' := (List.nodup_cons.1 nd).2
        exact (List.nodup_append.1 nd').2.2 i hm i (mem_ids_of_mem_topIds hir) rfl
      rw [if_neg hik]
      have nd' : r.ids.Nodup := by
        simp only [ids_cons] at nd
        exact (List.nodup_append.1 (List.nodup_cons.1 nd).2).2.1
      have := ihr nd' hir
      rw [lastId_cons, this]
      rfl

theorem RelL.closeAt {s : Sys α} {n : Loose α} (h : RelL s n) (fl : Flavor)
    (k : Nat) (d : α) (explicit : Option Span)
    (n' : Loose α) (o : Except Err Out) (hst : n.closeAt fl k d explicit = some (n', o)) :
    ∃ s', (match s.handles[k]? with
      | none => (s, .ok .unit)
      | some c =>
        let r := s.b.closeAtCore fl s.cells c d explicit
        ({ s with b := r.2.1, cells := r.1 }, r.2.2.map .id)) = (s', o) ∧ RelL s' n' := by
  unfold Loose.closeAt at hst
  have hlen := h.places.len
  cases hp : n.places[k]? with
  | none =>
    rw [hp] at hst
    simp only [Option.some.injEq] at hst
    obtain ⟨rfl, rfl⟩ := Prod.mk.inj hst
    have : s.handles[k]? = none := by
      rw [List.getElem?_eq_none_iff] at hp ⊢; omega
    rw [this]
    exact ⟨s, rfl, h⟩
  | some p =>
    rw [hp] at hst
    simp only at hst
    have hlt : k < s.handles.length := hlen ▸ (List.getElem?_eq_some_iff.1 hp).1
    obtain ⟨c, hk⟩ : ∃ c, s.handles[k]? = some c := ⟨_, List.getElem?_eq_getElem hlt⟩
    rw [hk]
    simp only
    have c1 := h.places.cell k c p hk hp
    have hmem := List.mem_of_getElem? hp
    by_cases hfr : p.level ≠ n.base.frame
    · rw [if_pos hfr] at hst
      simp only [Option.some.injEq] at hst
      obtain ⟨rfl, rfl⟩ := Prod.mk.inj hst
      refine ⟨s, ?_, h⟩
      unfold Builder.closeAtCore
      rw [c1]
      simp only
      rw [if_pos (by rw [h.base.parent]; exact hfr)]
      rfl
    · rw [if_neg hfr] at hst
      have hfr' : p.level = n.base.frame := Decidable.not_not.1 hfr
      by_cases hc : n.base.count < 2 ^ fl.width - 1
      · have hnf : ¬ (n.base.full fl = true) := not_full_iff.2 hc
        rw [if_neg hnf] at hst
        by_cases hnode : p.node = n.base.count
        · rw [if_pos hnode] at hst
          by_cases ht : n.tidy = true
          · rw [if_pos ht] at hst
            simp only [Option.some.injEq] at hst
            obtain ⟨rfl, rfl⟩ := Prod.mk.inj hst
            obtain ⟨T, e, ix, r, hl⟩ := h.base.insertLeaf (h.sib ht) fl hc d
              (explicit.getD (Span.point n.base.cursor))
            refine ⟨{ s with b := { s.b with tree := T, sibling := some n.base.count } }, ?_,
              r, fun _ => hl, h.places.addLeaf _ _⟩
            unfold Builder.closeAtCore
            rw [c1]
            simp only
            rw [if_neg (by rw [h.base.parent]; exact hfr)]
            simp only [Tree.len, h.base.tree.len]
            rw [ptrNew_eq, if_pos hc]
            simp only
            have hnone : s.b.tree.nodes[p.node]? = none := by
              rw [List.getElem?_eq_none_iff, h.base.tree.len, hnode]; exact Nat.le_refl _
            rw [hnone]
            simp only [h.base.cursor, e, hnode, ne_eq, not_true_eq_false, if_false]
            rfl
          · rw [if_neg ht] at hst; simp at hst
        · rw [if_neg hnode] at hst
          simp only [Option.some.injEq] at hst
          obtain ⟨rfl, rfl⟩ := Prod.mk.inj hst
          have hb := h.places.bound p hmem
          have hcur : p.node ∈ n.base.cur.ids := by
            have := h.places.where_ p hmem (by omega) (by rw [hfr']; exact frame_mem_levels _)
            rw [hfr'] at this
            cases hstk : n.base.stack with
            | nil => rw [hstk] at this; exact this
            | cons q st =>
              obtain ⟨x, left⟩ := q
              have hf : n.base.frame = some x.id := by simp [Nest.frame, hstk]
              rw [hstk, hf, under, if_pos rfl] at this
              exact this
          obtain ⟨T, e, ix, spn, tr⟩ := h.base.tree.wrapAt (fl := fl) (b := s.b) (d := d)
            (explicit := explicit) h.base.parent hc (c := c) (cells := s.cells)
            (by rw [c1, hfr']; rfl) hcur
          refine ⟨⟨{ s.b with tree := T, sibling := some n.base.count },
            s.cells.set c ⟨n.base.count, n.base.cur.parentOf p.node n.base.frame⟩, s.handles⟩, ?_, ?_⟩
          · simp only [e]; rfl
          · have nd := (List.nodup_append.1 h.base.tree.nodup).1
            refine ⟨⟨tr, h.base.parent, h.base.cursor, spn.trans h.base.span⟩, ?_, ?_⟩
            · intro ht
              have ht' : p.node ∈ n.base.cur.topIds := by simpa [Loose.wrapAt] using ht
              exact (lastId_wrapFrom (new := ⟨n.base.count, d, _⟩) nd ht').symm
            · refine h.places.wrapped hk hp ?_ ?_
              · intro i hi
                refine (ids_wrapFrom hcur).mem_iff.2 ?_
                rcases hi with h | h
                · exact List.mem_cons_of_mem _ h
                · rw [h]; exact List.mem_cons_self
              · intro f hf
                rcases parentOf_mem (par := n.base.frame) hcur with h1 | ⟨j, h1, h2⟩
                · exact h.base.frame_lt (h1 ▸ hf)
                · have hj : some j = some f := h2.symm.trans hf
                  simp only [Option.some.injEq] at hj
                  exact hj ▸ h.base.tree.lt (List.mem_append_left _ h1)
      · have hf : n.base.full fl = true := full_iff.2 hc
        rw [if_pos hf] at hst
        simp only [Option.some.injEq] at hst
        obtain ⟨rfl, rfl⟩ := Prod.mk.inj hst
        refine ⟨s, ?_, h⟩
        unfold Builder.closeAtCore
        rw [c1]
        simp only
        rw [if_neg (by rw [h.base.parent]; exact hfr)]
        simp only [Tree.len, h.base.tree.len]
        rw [ptrNew_eq, if_neg hc]
        rfl

/-- The calls that are the same as in `Nest`. -/
theorem RelL.plain {s s' : Sys α} {n : Loose α} {n' : Nest α} (ha : AfterL s s' n')
    (hp : PInv s.cells s.handles s.b.checkpoint n' n.places) : RelL s' ⟨n', n.places, true⟩ := by
  refine ⟨ha.rel, fun _ => ha.sibling, ?_⟩
  rw [ha.cells, ha.handles, ha.checkpoint]; exact hp

theorem PInv.openWith {cells : Cells} {handles : List Nat} {ck : Option Nat} {n : Nest α}
    {ps : List Place} (h : PInv cells handles ck n ps) (fl : Flavor) (d : α) (sp : Span) :
    PInv cells handles ck (n.openWith fl d sp).1 ps := by
  simp only [Nest.openWith]
  split
  · exact h
  · exact h.addOpen _ _

theorem PInv.token {cells : Cells} {handles : List Nat} {ck : Option Nat} {n : Nest α}
    {ps : List Place} (h : PInv cells handles ck n ps) (fl : Flavor) (d : α) (len : Nat) :
    PInv cells handles ck (n.token fl d len).1 ps := by
  simp only [Nest.token]
  split
  · split
    · exact h
    · exact h.addLeaf _ _
  · split
    · exact h
    · have h' := h.same (n' := { n with cursor := ‹Nat›, stop := ‹Nat› }) rfl rfl rfl
      split
      · exact h'
      · exact h'.addLeaf _ _

/-- One call. -/
theorem RelL.step {s : Sys α} {n n' : Loose α} {o : Except Err Out} (fl : Flavor)
    (h : RelL s n) (op : Op α) (hst : n.step fl op = some (n', o)) :
    ∃ s', s.step fl op = (s', o) ∧ RelL s' n' := by
  have tidy : ∀ {op : Op α}, (if n.tidy = true then (n.base.step fl op).map
      fun r => ((⟨r.1, n.places, true⟩ : Loose α), r.2) else none) = some (n', o) →
      n.tidy = true ∧ ∃ m, n.base.step fl op = some (m, o) ∧ n' = ⟨m, n.places, true⟩ := by
    intro op h1
    split at h1
    · rename_i ht
      rw [Option.map_eq_some_iff] at h1
      obtain ⟨⟨m, o'⟩, h2, h3⟩ := h1
      obtain ⟨rfl, rfl⟩ := Prod.mk.inj h3
      exact ⟨ht, m, h2, rfl⟩
    · simp at h1
  cases op with
  | «open» d =>
    obtain ⟨ht, m, h1, rfl⟩ := tidy hst
    simp only [Nest.step, Option.some.injEq] at h1
    obtain ⟨s', e, r⟩ := h.base.openWith (h.sib ht) fl d (Span.point n.base.cursor)
    have hp := h.places.openWith fl d (Span.point n.base.cursor)
    rw [h1] at e r hp
    refine ⟨s', ?_, RelL.plain (n := n) r hp⟩
    simp only [Sys.step, Builder.open, h.base.cursor]; exact e
  | openWith d sp =>
    obtain ⟨ht, m, h1, rfl⟩ := tidy hst
    simp only [Nest.step, Option.some.injEq] at h1
    obtain ⟨s', e, r⟩ := h.base.openWith (h.sib ht) fl d sp
    have hp := h.places.openWith fl d sp
    rw [h1] at e r hp
    exact ⟨s', e, RelL.plain (n := n) r hp⟩
  | close =>
    simp only [Loose.step, Option.map_eq_some_iff] at hst
    obtain ⟨⟨m, o'⟩, h1, h2⟩ := hst
    obtain ⟨rfl, rfl⟩ := Prod.mk.inj h2
    rcases h.base.close fl m o' h1 with ⟨g1, rfl, g3⟩ | ⟨g1, s', g2, g3⟩
    · refine ⟨s, g3, h.base, ?_, h.places⟩
      intro ht
      simp only [g1, List.isEmpty_nil, Bool.not_true, Bool.or_false] at ht
      exact h.sib ht
    · have hst' : (n.tidy || !n.base.stack.isEmpty) = true := by
        cases hs : n.base.stack with
        | nil => exact absurd hs g1
        | cons p st => simp
      rw [hst']
      refine ⟨s', g2, RelL.plain (n := n) g3 ?_⟩
      cases hs : n.base.stack with
      | nil => exact absurd hs g1
      | cons p st =>
        obtain ⟨x, left⟩ := p
        simp only [Nest.step, hs, Option.some.injEq] at h1
        obtain ⟨rfl, rfl⟩ := Prod.mk.inj h1
        exact h.places.close hs (List.nodup_append.1 h.base.tree.nodup).2.1
  | token d len =>
    obtain ⟨ht, m, h1, rfl⟩ := tidy hst
    simp only [Nest.step, Option.some.injEq] at h1
    obtain ⟨s', e, r⟩ := h.base.token (h.sib ht) fl d len
    have hp := h.places.token fl d len
    rw [h1] at e r hp
    exact ⟨s', e, RelL.plain (n := n) r hp⟩
  | tokenEmpty d =>
    obtain ⟨ht, m, h1, rfl⟩ := tidy hst
    simp only [Nest.step, Option.some.injEq] at h1
    obtain ⟨s', e, r⟩ := h.base.token (h.sib ht) fl d 0
    have hp := h.places.token fl d 0
    rw [h1] at e r hp
    exact ⟨s', e, RelL.plain (n := n) r hp⟩
  | tokenWith d sp =>
    obtain ⟨ht, m, h1, rfl⟩ := tidy hst
    obtain ⟨s', e, r⟩ := h.base.tokenWith (h.sib ht) fl d sp m o h1
    refine ⟨s', e, RelL.plain (n := n) r ?_⟩
    simp only [Nest.step, Option.some.injEq] at h1
    split at h1
    · obtain ⟨rfl, rfl⟩ := Prod.mk.inj h1; exact h.places
    · obtain ⟨rfl, rfl⟩ := Prod.mk.inj h1
      have := h.places.addLeaf d sp
      obtain ⟨a1, a2, a3, a4, a5, a6, a7, a8, a9⟩ := this
      refine ⟨a1, a2, a3, a4, a5, a6, ?_, ?_, ?_⟩
      · intro k c p hk hp hb
        refine a7 k c p hk hp (hb.trans ?_)
        simp only [Nest.frame]
        exact congrArg (Prod.mk _) (parOf_growParent _ _)
      · intro p hp hb hm
        exact a8 p hp hb (by rw [levels_growParent] at hm; exact hm)
      · intro p hp hlt hlv
        rw [levels_growParent] at hlv
        rw [under_growParent]
        exact a9 p hp hlt hlv
  | checkpoint => exact h.checkpoint fl n' o hst
  | closeAt k d => exact h.closeAt fl k d none n' o hst
  | closeAtWith k d sp => exact h.closeAt fl k d (some sp) n' o hst
  | setCursor i =>
    simp only [Loose.step, Option.some.injEq] at hst
    obtain ⟨rfl, rfl⟩ := Prod.mk.inj hst
    exact ⟨_, rfl, ⟨h.base.tree, h.base.parent, rfl, h.base.span⟩, h.sib,
      h.places.same rfl rfl rfl⟩

/-- A whole history. -/
theorem RelL.run {s : Sys α} {n n' : Loose α} {os : List (Except Err Out)} (fl : Flavor)
    (h : RelL s n) (ops : List (Op α)) (hst : n.run fl ops = some (n', os)) :
    ∃ s', s.run fl ops = (s', os) ∧ RelL s' n' := by
  induction ops generalizing s n os with
  | nil =>
    simp only [Loose.run, Option.some.injEq] at hst
    obtain ⟨rfl, rfl⟩ := Prod.mk.inj hst
    exact ⟨s, rfl, h⟩
  | cons op ops ih =>
    simp only [Loose.run] at hst
    cases h1 : n.step fl op with
    | none => rw [h1] at hst; simp at hst
    | some r =>
      obtain ⟨n1, o1⟩ := r
      rw [h1] at hst
      simp only at hst
      cases h2 : n1.run fl ops with
      | none => rw [h2] at hst; simp at hst
      | some r2 =>
        obtain ⟨n2, os2⟩ := r2
        rw [h2] at hst
        simp only [Option.some.injEq] at hst
        obtain ⟨rfl, rfl⟩ := Prod.mk.inj hst
        obtain ⟨s1, e1, r1⟩ := h.step fl op h1
        obtain ⟨s2, e2, r2⟩ := ih r1 h2
        refine ⟨s2, ?_, r2⟩
        simp only [Sys.run, e1, e2]

end Syntree
