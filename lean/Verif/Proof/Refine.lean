import Verif.Proof.Marks

/-! The builder refines the nested-list machine. -/

namespace Syntree

variable {α : Type}

open Forest

/-- The abstraction relation. With `g = true` the stored last children are exact. -/
structure Rel (g : Bool) (s : Sys α) (n : Nest α) : Prop where
  tree : TRep g s.b.tree n.cur n.stack n.count
  parent : s.b.parent = n.frame
  sibling : s.b.sibling = n.cur.lastId
  cursor : s.b.cursor = n.cursor
  span : s.b.tree.span = ⟨0, n.stop⟩
  marks : HInv s.cells s.handles s.b.checkpoint n

theorem Rel.init (g : Bool) : Rel g (Sys.init : Sys α) Nest.init :=
  ⟨⟨trivial, ⟨rfl, LastRel.nil⟩, by simp [Nest.init, stackIds], rfl⟩,
    rfl, rfl, rfl, rfl, HInv.init⟩

theorem Rel.frame_lt {g : Bool} {s : Sys α} {n : Nest α} (h : Rel g s n) {f : Nat}
    (hf : n.frame = some f) : f < n.count :=
  h.tree.lt (List.mem_append_right _ (parOf_mem hf))

theorem full_iff {fl : Flavor} {n : Nest α} : n.full fl = true ↔ ¬ n.count < 2 ^ fl.width - 1 := by
  simp [Nest.full]

theorem not_full_iff {fl : Flavor} {n : Nest α} :
    ¬ (n.full fl = true) ↔ n.count < 2 ^ fl.width - 1 := by
  rw [full_iff]; omega

theorem insert_full {fl : Flavor} {b : Builder α} {d : α} {sp : Span}
    (h : ¬ b.tree.nodes.length < 2 ^ fl.width - 1) : b.insert fl d sp = (b, .error .overflow) := by
  simp only [Builder.insert, Tree.len]
  rw [ptrNew_eq, if_neg h]

/-- Inserting a leaf refines `addLeaf`. -/
theorem Rel.insertLeaf {g : Bool} {s : Sys α} {n : Nest α} (h : Rel g s n) (fl : Flavor)
    (hc : n.count < 2 ^ fl.width - 1) (d : α) (sp : Span) :
    ∃ T : Tree α, s.b.insert fl d sp = ({ s.b with tree := T, sibling := none }, .ok n.count) ∧
      T.indexes = s.b.tree.indexes ∧
      Rel g { s with b := { s.b with tree := T, sibling := some n.count } } (n.addLeaf d sp) := by
  obtain ⟨T, e, ix, spn, tr⟩ :=
    h.tree.insertLeaf (fl := fl) (d := d) (sp := sp) h.parent h.sibling hc
  refine ⟨T, e, ix, tr, ?_, ?_, h.cursor, ?_, h.marks.addLeaf d sp⟩
  · show s.b.parent = _
    rw [h.parent]; exact (parOf_endParent _ _).symm
  · show some n.count = (n.cur ++ _).lastId
    rw [lastId_append]; rfl
  · exact spn.trans h.span

theorem Rel.openWith {g : Bool} {s : Sys α} {n : Nest α} (h : Rel g s n) (fl : Flavor)
    (d : α) (sp : Span) :
    ∃ s', s.lift .id (s.b.openWith fl d sp) = (s', (n.openWith fl d sp).2) ∧
      Rel g s' (n.openWith fl d sp).1 := by
  by_cases hc : n.count < 2 ^ fl.width - 1
  · obtain ⟨T, e, ix, spn, tr⟩ :=
      h.tree.insertOpen (fl := fl) (d := d) (sp := sp) h.parent h.sibling hc
    have hnf : ¬ (n.full fl = true) := not_full_iff.2 hc
    refine ⟨{ s with b := { s.b with tree := T, sibling := none, parent := some n.count } }, ?_, ?_⟩
    · simp only [Builder.openWith, e, Sys.lift, Nest.openWith, if_neg hnf, Except.map]
    · simp only [Nest.openWith, if_neg hnf]
      exact ⟨tr, rfl, rfl, h.cursor, spn.trans h.span, h.marks.addOpen d sp⟩
  · have hf : n.full fl = true := full_iff.2 hc
    refine ⟨s, ?_, ?_⟩
    · simp only [Builder.openWith, insert_full (by rw [h.tree.len]; exact hc), Sys.lift,
        Nest.openWith, if_pos hf, Except.map]
    · simp only [Nest.openWith, if_pos hf]; exact h

theorem Rel.token {g : Bool} {s : Sys α} {n : Nest α} (h : Rel g s n) (fl : Flavor)
    (d : α) (len : Nat) :
    ∃ s', s.lift .id (s.b.token fl d len) = (s', (n.token fl d len).2) ∧
      Rel g s' (n.token fl d len).1 := by
  by_cases he : fl.ik.lenIsEmpty len = true
  · by_cases hc : n.count < 2 ^ fl.width - 1
    · have hnf : ¬ (n.full fl = true) := not_full_iff.2 hc
      obtain ⟨T, e, ix, r⟩ := h.insertLeaf fl hc d (Span.point n.cursor)
      refine ⟨{ s with b := { s.b with tree := T, sibling := some n.count } }, ?_, ?_⟩
      · have e' : s.b.insert fl d (Span.new s.b.cursor s.b.cursor) = _ := h.cursor ▸ e
        simp only [Builder.token, Nest.token, he, if_true, if_neg hnf, e', Sys.lift, Except.map]
      · simp only [Nest.token, he, if_true, if_neg hnf]; exact r
    · have hf : n.full fl = true := full_iff.2 hc
      refine ⟨s, ?_, ?_⟩
      · simp only [Builder.token, Nest.token, he, if_true, if_pos hf,
          insert_full (by rw [h.tree.len]; exact hc), Sys.lift, Except.map]
      · simp only [Nest.token, he, if_true, if_pos hf]; exact h
  · cases ha : fl.ik.checkedAddLen n.cursor len with
    | none =>
      refine ⟨s, ?_, ?_⟩
      · simp only [Builder.token, Nest.token, if_neg he, h.cursor, ha, Sys.lift, Except.map]
      · simp only [Nest.token, if_neg he, ha]; exact h
    | some c =>
      have h1 : Rel g { s with b := { s.b with cursor := c, tree :=
          { s.b.tree with span := { s.b.tree.span with stop := c } } } }
          { n with cursor := c, stop := c } :=
        ⟨h.tree.congr rfl rfl rfl, h.parent, h.sibling, rfl, by simp [h.span],
          h.marks.same rfl rfl rfl rfl⟩
      by_cases hc : n.count < 2 ^ fl.width - 1
      · have hnf : ¬ (n.full fl = true) := not_full_iff.2 hc
        obtain ⟨T, e, ix, r⟩ := h1.insertLeaf fl hc d (Span.new n.cursor c)
        refine ⟨{ s with b := { s.b with cursor := c, tree := T.pushIndex fl ⟨c, n.count⟩, sibling := some n.count } }, ?_, ?_⟩
        · simp only [Builder.token, Nest.token, if_neg he, h.cursor, ha, if_neg hnf]
          simp only at e
          rw [e]
          simp only [Sys.lift, Except.map]
        · simp only [Nest.token, if_neg he, ha, if_neg hnf]
          obtain ⟨a1, a2, a3, a4, a5, a6⟩ := r
          refine ⟨a1.congr ?_ ?_ ?_, a2, a3, a4, ?_, a6⟩
          · simp only [Tree.pushIndex]; split <;> rfl
          · simp only [Tree.pushIndex]; split <;> rfl
          · simp only [Tree.pushIndex]; split <;> rfl
          · refine Eq.trans ?_ a5; simp only [Tree.pushIndex]; split <;> rfl
      · have hf : n.full fl = true := full_iff.2 hc
        refine ⟨⟨⟨{ s.b.tree with span := { s.b.tree.span with stop := c } },
          s.b.checkpoint, s.b.parent, s.b.sibling, c⟩, s.cells, s.handles⟩, ?_, ?_⟩
        rotate_left
        · simp only [Nest.token, if_neg he, ha, if_pos hf]; exact h1
        · have hfull : ∀ sp, (Builder.insert fl { s.b with cursor := c, tree :=
              { s.b.tree with span := { s.b.tree.span with stop := c } } } d sp) =
              ({ s.b with cursor := c, tree :=
                { s.b.tree with span := { s.b.tree.span with stop := c } } }, .error .overflow) :=
            fun sp => insert_full (by show ¬ s.b.tree.nodes.length < _; rw [h.tree.len]; exact hc)
          simp only [Builder.token, Nest.token, if_neg he, h.cursor, ha, if_pos hf, Sys.lift,
            Except.map, hfull]

theorem Rel.tokenWith {g : Bool} {s : Sys α} {n : Nest α} (h : Rel g s n) (fl : Flavor)
    (d : α) (sp : Span) (n' : Nest α) (o : Except Err Out)
    (hst : n.step fl (.tokenWith d sp) = some (n', o)) :
    ∃ s', s.step fl (.tokenWith d sp) = (s', o) ∧ Rel g s' n' := by
  simp only [Nest.step, Option.some.injEq] at hst
  simp only [Sys.step]
  by_cases hc : n.count < 2 ^ fl.width - 1
  · have hnf : ¬ (n.full fl = true) := not_full_iff.2 hc
    rw [if_neg hnf] at hst
    obtain ⟨rfl, rfl⟩ := Prod.mk.inj hst
    obtain ⟨T, e, ix, r⟩ := h.insertLeaf fl hc d sp
    simp only [Builder.tokenWith, e, Sys.lift, Except.map]
    refine ⟨_, rfl, ?_⟩
    obtain ⟨a1, a2, a3, a4, a5, a6⟩ := r
    have hpar : s.b.parent = parOf (n.addLeaf d sp).stack := by
      rw [h.parent]; exact (parOf_endParent _ _).symm
    refine ⟨?_, ?_, a3, rfl, ?_, ?_⟩
    · simp only [hpar]
      refine TRep.grow ?_ sp
      refine a1.congr ?_ ?_ ?_
      · simp only [Tree.pushIndex]; split <;> rfl
      · simp only [Tree.pushIndex]; split <;> rfl
      · simp only [Tree.pushIndex]; split <;> rfl
    · show s.b.parent = _
      rw [hpar]; exact (parOf_growParent _ _).symm
    · show (Tree.modifyOpt _ _ _).span = _
      have : ∀ (t : Tree α) (o : Option Nat) f, (t.modifyOpt o f).span = t.span := by
        intro t o f; cases o <;> rfl
      rw [this]
      refine Eq.trans ?_ a5
      simp only [Tree.pushIndex]; split <;> rfl
    · obtain ⟨b1, b2, b3, b4, b5, b6⟩ := a6
      refine ⟨b1, ?_, b3, b4, ?_, b6⟩
      · intro k c m hk hm
        obtain ⟨cell, c1, c2, c3, c4, c5⟩ := b2 k c m hk hm
        refine ⟨cell, c1, c2, ?_, c4, c5⟩
        intro hl sl hsl
        refine c3 hl sl ?_
        rw [← hsl]; exact (slots_growParent _ _ _ _).symm
      · intro k c m hk hm hl hf hp
        refine b5 k c m hk hm hl ?_ hp
        exact hf.trans (parOf_growParent _ _)
  · have hf : n.full fl = true := full_iff.2 hc
    rw [if_pos hf] at hst
    obtain ⟨rfl, rfl⟩ := Prod.mk.inj hst
    refine ⟨s, ?_, h⟩
    simp only [Builder.tokenWith, insert_full (by rw [h.tree.len]; exact hc), Sys.lift, Except.map]

theorem Rel.close {g : Bool} {s : Sys α} {n : Nest α} (h : Rel g s n) (fl : Flavor)
    (n' : Nest α) (o : Except Err Out) (hst : n.step fl .close = some (n', o)) :
    ∃ s', s.step fl .close = (s', o) ∧ Rel g s' n' := by
  simp only [Nest.step, Option.some.injEq] at hst
  simp only [Sys.step, Builder.close]
  have hp := h.parent
  unfold Nest.frame at hp
  cases hstk : n.stack with
  | nil =>
    rw [hstk] at hst hp
    simp only at hst
    obtain ⟨rfl, rfl⟩ := Prod.mk.inj hst
    simp only [List.head?_nil, Option.map_none] at hp
    refine ⟨s, ?_, h⟩
    rw [hp]; simp [Sys.lift, Except.map]
  | cons p st =>
    obtain ⟨x, left⟩ := p
    rw [hstk] at hst hp
    simp only at hst
    obtain ⟨rfl, rfl⟩ := Prod.mk.inj hst
    simp only [List.head?_cons, Option.map_some] at hp
    have htr := h.tree
    rw [hstk] at htr
    have hx := htr.ctx.1
    obtain ⟨l, hl, hx⟩ := hx
    have nd2 : (stackIds n.stack).Nodup := (List.nodup_append.1 h.tree.nodup).2.1
    have hmk := h.marks.close (c := x.span.stop) hstk nd2
    have hpop := htr.pop
    have hgrow := hpop.grow x.span
    rw [hp]
    simp only [hx]
    have hlast : some x.id = (left ++ single x n.cur).lastId := by rw [lastId_append]; rfl
    cases hpar : parOf st with
    | none =>
      refine ⟨⟨⟨s.b.tree, s.b.checkpoint, none, some x.id, x.span.stop⟩, s.cells, s.handles⟩,
        ?_, ?_⟩
      · have : (mkLinks x (parOf st) left.lastId none n.cur.headId l).parent = none := hpar
        simp only [this]; rfl
      · rw [hpar] at hgrow
        refine ⟨hgrow, ?_, hlast, rfl, h.span, hmk⟩
        show none = _
        rw [← hpar]; exact (parOf_growParent _ _).symm
    | some q =>
      have hq : q < s.b.tree.len := by
        rw [Tree.len, h.tree.len]
        refine htr.lt (List.mem_append_right _ ?_)
        simp [stackIds, parOf_mem hpar]
      refine ⟨⟨⟨s.b.tree.modifyNode q (fun p => { p with span := p.span.join x.span }),
        s.b.checkpoint, some q, some x.id, x.span.stop⟩, s.cells, s.handles⟩, ?_, ?_⟩
      · have : (mkLinks x (parOf st) left.lastId none n.cur.headId l).parent = some q := hpar
        simp only [this, if_pos hq]; rfl
      · rw [hpar] at hgrow
        refine ⟨hgrow, ?_, hlast, rfl, h.span, hmk⟩
        show some q = _
        rw [← hpar]; exact (parOf_growParent _ _).symm

theorem Rel.checkpoint {g : Bool} {s : Sys α} {n : Nest α} (h : Rel g s n) (fl : Flavor)
    (n' : Nest α) (o : Except Err Out) (hst : n.step fl .checkpoint = some (n', o)) :
    ∃ s', s.step fl .checkpoint = (s', o) ∧ Rel g s' n' := by
  simp only [Nest.step, Option.some.injEq] at hst
  simp only [Sys.step, Builder.mkCheckpoint, Tree.len, h.tree.len]
  rw [ptrNew_eq]
  by_cases hc : n.count < 2 ^ fl.width - 1
  · have hnf : ¬ (n.full fl = true) := not_full_iff.2 hc
    rw [if_neg hnf] at hst
    obtain ⟨rfl, rfl⟩ := Prod.mk.inj hst
    rw [if_pos hc]
    simp only
    have freshRel : (∀ (k c : Nat) (m : Mark), s.handles[k]? = some c → n.marks[k]? = some m →
        m.live = true → m.frame = n.frame → m.pos = n.cur.topIds.length → False) →
        Rel g ⟨{ s.b with checkpoint := some s.cells.length }, s.cells ++ [⟨n.count, s.b.parent⟩],
          s.handles ++ [s.cells.length]⟩
          { n with marks := n.marks ++ [⟨n.frame, n.cur.width, true⟩] } := by
      intro hno
      refine ⟨h.tree, h.parent, h.sibling, h.cursor, h.span, ?_⟩
      rw [h.parent]
      exact h.marks.fresh hno (fun f hf => h.frame_lt hf)
    have hlen := h.marks.len
    cases hck : s.b.checkpoint with
    | none =>
      simp only
      refine ⟨_, by rw [hlen], freshRel ?_⟩
      intro k c m hk hm hl hf hp
      have := h.marks.cached k c m hk hm hl hf hp
      rw [hck] at this; simp at this
    | some c =>
      simp only
      obtain ⟨k0, hk0⟩ := h.marks.ckpt c hck
      have hlt : k0 < n.marks.length := hlen ▸ (List.getElem?_eq_some_iff.1 hk0).1
      obtain ⟨m0, hm0⟩ : ∃ m, n.marks[k0]? = some m := ⟨_, List.getElem?_eq_getElem hlt⟩
      obtain ⟨cell, c1, c2, c3, c4, c5⟩ := h.marks.cell k0 c m0 hk0 hm0
      rw [c1]
      simp only
      by_cases hcond : cell.node = n.count ∧ cell.parent = s.b.parent
      · rw [if_pos hcond]
        -- the cached cell is live, in this frame, at the end
        have hl : m0.live = true := by
          cases hl : m0.live with
          | true => rfl
          | false => have := c4 hl; omega
        have hf : m0.frame = n.frame := by rw [← c2, hcond.2, h.parent]
        have hsl := c3 hl _ (by rw [hf]; exact slots_self _ _)
        rw [hcond.1] at hsl
        have hpos : m0.pos = n.cur.topIds.length := by
          rcases Nat.lt_trichotomy m0.pos n.cur.topIds.length with hlt | heq | hgt
          · exfalso
            rw [List.getElem?_append_left hlt] at hsl
            have hmem := List.mem_of_getElem? hsl
            have := h.tree.lt (List.mem_append_left _ (mem_ids_of_mem_topIds hmem))
            omega
          · exact heq
          · exfalso
            have := (List.getElem?_eq_some_iff.1 hsl).1
            simp at this; omega
        have hm0' : m0 = ⟨n.frame, n.cur.width, true⟩ := by
          obtain ⟨a, b, c⟩ := m0
          simp only at hl hf hpos
          rw [hl, hf, hpos, width_eq, topIds_length]
        refine ⟨⟨s.b, s.cells, s.handles ++ [c]⟩, by rw [hlen],
          h.tree, h.parent, h.sibling, h.cursor, h.span, ?_⟩
        exact h.marks.reuse hck hk0 (hm0' ▸ hm0)
      · rw [if_neg hcond]
        refine ⟨_, by rw [hlen], freshRel ?_⟩
        intro k c' m hk hm hl hf hp
        have hcc := h.marks.cached k c' m hk hm hl hf hp
        rw [hck] at hcc
        simp only [Option.some.injEq] at hcc
        subst hcc
        obtain ⟨cell', d1, d2, d3, _⟩ := h.marks.cell k c m hk hm
        rw [c1] at d1; simp only [Option.some.injEq] at d1; subst d1
        have hsl := d3 hl _ (by rw [hf]; exact slots_self _ _)
        rw [hp] at hsl
        refine hcond ⟨?_, by rw [d2, hf, h.parent]⟩
        simpa using hsl.symm
  · have hf : n.full fl = true := full_iff.2 hc
    rw [if_pos hf] at hst
    obtain ⟨rfl, rfl⟩ := Prod.mk.inj hst
    rw [if_neg hc]
    exact ⟨s, rfl, h⟩

theorem Rel.closeAt {g g' : Bool} {s : Sys α} {n : Nest α} (h : Rel g s n) (fl : Flavor)
    (k : Nat) (d : α) (explicit : Option Span)
    (n' : Nest α) (o : Except Err Out) (hst : n.closeAt fl k d explicit = some (n', o))
    (hg : g' = true → g = true ∧ ∀ m, n.marks[k]? = some m →
      n.cur.drop m.pos = .nil ∨ (∃ x, (n.cur.drop m.pos).tops = [x]) ∧ n.stack ≠ []) :
    ∃ s', (match s.handles[k]? with
      | none => (s, .ok .unit)
      | some c =>
        let r := s.b.closeAtCore fl s.cells c d explicit
        ({ s with b := r.2.1, cells := r.1 }, r.2.2.map .id)) = (s', o) ∧ Rel g' s' n' := by
  have hmono : Rel g' s n := by
    refine ⟨?_, h.parent, h.sibling, h.cursor, h.span, h.marks⟩
    cases g' with
    | false => exact h.tree.weaken
    | true => rw [← (hg rfl).1]; exact h.tree
  unfold Nest.closeAt at hst
  have hlen := h.marks.len
  cases hm : n.marks[k]? with
  | none =>
    rw [hm] at hst
    simp only [Option.some.injEq] at hst
    obtain ⟨rfl, rfl⟩ := Prod.mk.inj hst
    have : s.handles[k]? = none := by
      rw [List.getElem?_eq_none_iff] at hm ⊢; omega
    rw [this]
    exact ⟨s, rfl, hmono⟩
  | some m =>
    rw [hm] at hst
    simp only at hst
    have hlt : k < s.handles.length := hlen ▸ (List.getElem?_eq_some_iff.1 hm).1
    obtain ⟨c, hk⟩ : ∃ c, s.handles[k]? = some c := ⟨_, List.getElem?_eq_getElem hlt⟩
    rw [hk]
    simp only
    obtain ⟨cell, c1, c2, c3, c4, c5⟩ := h.marks.cell k c m hk hm
    by_cases hfr : m.frame ≠ n.frame
    · rw [if_pos hfr] at hst
      simp only [Option.some.injEq] at hst
      obtain ⟨rfl, rfl⟩ := Prod.mk.inj hst
      refine ⟨s, ?_, hmono⟩
      unfold Builder.closeAtCore
      rw [c1]
      simp only
      rw [if_pos (by rw [c2, h.parent]; exact hfr)]
      rfl
    · rw [if_neg hfr] at hst
      have hfr' : m.frame = n.frame := Decidable.not_not.1 hfr
      by_cases hc : n.count < 2 ^ fl.width - 1
      · have hnf : ¬ (n.full fl = true) := not_full_iff.2 hc
        rw [if_neg hnf] at hst
        cases hlive : m.live with
        | false => rw [hlive] at hst; simp at hst
        | true =>
          rw [hlive] at hst
          simp only [Bool.not_true, Bool.false_eq_true, if_false, Option.some.injEq] at hst
          obtain ⟨rfl, rfl⟩ := Prod.mk.inj hst
          have hsl := c3 hlive _ (by rw [hfr']; exact slots_self _ _)
          have hsplit := take_append_drop m.pos n.cur
          cases hd : n.cur.drop m.pos with
          | nil =>
            -- nothing to wrap
            have hw : n.wrap m.pos d explicit =
                n.addLeaf d (explicit.getD (Span.point n.cursor)) := by
              simp [Nest.wrap, hd]
            rw [hw]
            have hpos : n.cur.topIds.length ≤ m.pos := by
              have h1 : (n.cur.drop m.pos).tops = [] := by rw [hd]; rfl
              rw [tops_drop] at h1
              rw [topIds_length]
              exact List.drop_eq_nil_iff.1 h1
            have hnode : cell.node = n.count := by
              rw [List.getElem?_append_right hpos] at hsl
              have := (List.getElem?_eq_some_iff.1 hsl).1
              simp only [List.length_singleton, Nat.lt_one_iff] at this
              rw [this] at hsl; simpa using hsl.symm
            obtain ⟨T, e, ix, r⟩ := hmono.insertLeaf fl hc d (explicit.getD (Span.point n.cursor))
            refine ⟨{ s with b := { s.b with tree := T, sibling := some n.count } }, ?_, r⟩
            unfold Builder.closeAtCore
            rw [c1]
            simp only
            rw [if_neg (by rw [c2, h.parent]; exact hfr)]
            simp only [Tree.len, h.tree.len]
            rw [ptrNew_eq, if_pos hc]
            simp only
            have hnone : s.b.tree.nodes[cell.node]? = none := by
              rw [List.getElem?_eq_none_iff, h.tree.len, hnode]; exact Nat.le_refl _
            rw [hnone]
            simp only [h.cursor, e, hnode, ne_eq, not_true_eq_false, if_false]
            rfl
          | cons y ky r =>
            have hw : n.wrap m.pos d explicit = { n with
                cur := n.cur.take m.pos ++ single
                  ⟨n.count, d, explicit.getD (Nest.stretch (n.cur.drop m.pos))⟩ (n.cur.drop m.pos)
                count := n.count + 1
                marks := n.marks.map fun m' : Mark =>
                  if m'.frame = n.frame ∧ m.pos < m'.pos then { m' with live := false }
                  else m' } := by
              simp only [Nest.wrap, hd, isNil_cons, Bool.false_eq_true, if_false]
            have hpos : m.pos < n.cur.topIds.length := by
              rcases Nat.lt_or_ge m.pos n.cur.topIds.length with h | h
              · exact h
              · exfalso
                have h1 : (n.cur.drop m.pos).tops ≠ [] := by rw [hd]; simp
                apply h1
                rw [tops_drop, List.drop_eq_nil_iff, ← topIds_length]; exact h
            have hnode : cell.node = y.id := by
              rw [List.getElem?_append_left hpos] at hsl
              have h1 : (n.cur.drop m.pos).topIds = n.cur.topIds.drop m.pos := by
                simp [Forest.topIds, tops_drop]
              rw [hd, topIds_cons] at h1
              have h2 : (n.cur.topIds.drop m.pos)[0]? = some y.id := by rw [← h1]; rfl
              rw [List.getElem?_drop, Nat.add_zero, hsl] at h2
              simpa using h2
            have htr := h.tree
            rw [← hsplit, hd] at htr
            have hcell : s.cells[c]? = some ⟨y.id, parOf n.stack⟩ := by
              rw [c1]; obtain ⟨a, b⟩ := cell
              simp only at hnode c2
              rw [hnode, c2, hfr']; rfl
            have hg' : g' = true → g = true ∧ r = .nil ∧ n.stack ≠ [] := by
              intro hg1
              obtain ⟨a, b⟩ := hg hg1
              refine ⟨a, ?_⟩
              rcases b m hm with b | ⟨⟨x, hx⟩, b⟩
              · rw [hd] at b; simp at b
              · rw [hd] at hx
                refine ⟨?_, b⟩
                cases r with
                | nil => rfl
                | cons => simp at hx
            obtain ⟨T, e, ix, spn, tr⟩ := htr.wrap (g' := g') (fl := fl) (d := d)
              (explicit := explicit) h.parent hc hcell hg'
            have hmark : m = ⟨n.frame, m.pos, true⟩ := by
              obtain ⟨a, b, c⟩ := m
              simp only at hlive hfr'
              rw [hlive, hfr']
            have hmk := h.marks.wrap (p := m.pos) hk (hmark ▸ hm) hpos
              (fun i hi => h.tree.lt (List.mem_append_left _ (mem_ids_of_mem_topIds hi)))
              ⟨n.count, d, explicit.getD (Nest.stretch (n.cur.drop m.pos))⟩ rfl
            rw [hw]
            refine ⟨_, by rw [e]; rfl, ?_⟩
            refine ⟨?_, h.parent, ?_, h.cursor, spn.trans h.span, hmk⟩
            · simp only [hd]; exact tr
            · show some n.count = (_ ++ single _ _).lastId
              rw [lastId_append]; rfl
      · have hf : n.full fl = true := full_iff.2 hc
        rw [if_pos hf] at hst
        simp only [Option.some.injEq] at hst
        obtain ⟨rfl, rfl⟩ := Prod.mk.inj hst
        refine ⟨s, ?_, hmono⟩
        unfold Builder.closeAtCore
        rw [c1]
        simp only
        rw [if_neg (by rw [c2, h.parent]; exact hfr)]
        simp only [Tree.len, h.tree.len]
        rw [ptrNew_eq, if_neg hc]
        rfl

/-- One call. -/
theorem Rel.step {g g' : Bool} {s : Sys α} {n n' : Nest α} {o : Except Err Out} (fl : Flavor)
    (h : Rel g s n) (op : Op α) (hst : n.step fl op = some (n', o))
    (hg : g' = true → g = true ∧ n.Gentle op) :
    ∃ s', s.step fl op = (s', o) ∧ Rel g' s' n' := by
  have hmono : Rel g' s n := by
    refine ⟨?_, h.parent, h.sibling, h.cursor, h.span, h.marks⟩
    cases g' with
    | false => exact h.tree.weaken
    | true => rw [← (hg rfl).1]; exact h.tree
  cases op with
  | «open» d =>
    simp only [Nest.step, Option.some.injEq] at hst
    obtain ⟨s', e, r⟩ := hmono.openWith fl d (Span.point n.cursor)
    rw [hst] at e r
    refine ⟨s', ?_, r⟩
    simp only [Sys.step, Builder.open, h.cursor]; exact e
  | openWith d sp =>
    simp only [Nest.step, Option.some.injEq] at hst
    obtain ⟨s', e, r⟩ := hmono.openWith fl d sp
    rw [hst] at e r
    exact ⟨s', e, r⟩
  | close => exact hmono.close fl n' o hst
  | token d len =>
    simp only [Nest.step, Option.some.injEq] at hst
    obtain ⟨s', e, r⟩ := hmono.token fl d len
    rw [hst] at e r
    exact ⟨s', e, r⟩
  | tokenEmpty d =>
    simp only [Nest.step, Option.some.injEq] at hst
    obtain ⟨s', e, r⟩ := hmono.token fl d 0
    rw [hst] at e r
    exact ⟨s', e, r⟩
  | tokenWith d sp => exact hmono.tokenWith fl d sp n' o hst
  | checkpoint => exact hmono.checkpoint fl n' o hst
  | closeAt k d => exact h.closeAt fl k d none n' o hst hg
  | closeAtWith k d sp => exact h.closeAt fl k d (some sp) n' o hst hg
  | setCursor i =>
    simp only [Nest.step, Option.some.injEq] at hst
    obtain ⟨rfl, rfl⟩ := Prod.mk.inj hst
    exact ⟨_, rfl, hmono.tree, h.parent, h.sibling, rfl, h.span,
      h.marks.same rfl rfl rfl rfl⟩

/-- A whole history. -/
theorem Rel.run {g g' : Bool} {s : Sys α} {n n' : Nest α} {os : List (Except Err Out)} (fl : Flavor)
    (h : Rel g s n) (ops : List (Op α)) (hst : n.run fl ops = some (n', os))
    (hg : g' = true → g = true ∧ n.GentleRun fl ops) :
    ∃ s', s.run fl ops = (s', os) ∧ Rel g' s' n' := by
  induction ops generalizing s n os g with
  | nil =>
    simp only [Nest.run, Option.some.injEq] at hst
    obtain ⟨rfl, rfl⟩ := Prod.mk.inj hst
    refine ⟨s, rfl, ?_, h.parent, h.sibling, h.cursor, h.span, h.marks⟩
    cases g' with
    | false => exact h.tree.weaken
    | true => rw [← (hg rfl).1]; exact h.tree
  | cons op ops ih =>
    simp only [Nest.run] at hst
    cases h1 : n.step fl op with
    | none => rw [h1] at hst; simp at hst
    | some r =>
      obtain ⟨n1, o1⟩ := r
      rw [h1] at hst
      simp only at hst
      cases h2 : n1.run fl ops with
      | none => rw [h2] at hst; simp at hst
      | some r2 =>
        obtain ⟨n2, os2⟩ := r2
        rw [h2] at hst
        simp only [Option.some.injEq] at hst
        obtain ⟨rfl, rfl⟩ := Prod.mk.inj hst
        obtain ⟨s1, e1, r1⟩ := h.step (g' := g') fl op h1 (fun hg1 => ⟨(hg hg1).1, (hg hg1).2.1⟩)
        obtain ⟨s2, e2, r2⟩ := ih r1 h2 (fun hg1 => ⟨hg1, (hg hg1).2.2 _ _ h1⟩)
        refine ⟨s2, ?_, r2⟩
        simp only [Sys.run, e1, e2]

end Syntree
