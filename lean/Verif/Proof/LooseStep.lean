import Verif.Proof.LooseTree
import Verif.Proof.Refine

/-! The calls that have nothing to do with checkpoints, with the weaker representation. -/

namespace Syntree

variable {α : Type}

open Forest

/-- What the builder has to do with the nested lists, but for the place where the next node goes and
the checkpoints. -/
structure RelB (s : Sys α) (n : Nest α) : Prop where
  tree : TRepL s.b.tree n.cur n.stack n.count
  parent : s.b.parent = n.frame
  cursor : s.b.cursor = n.cursor
  span : s.b.tree.span = ⟨0, n.stop⟩

/-- After a call that has nothing to do with checkpoints. -/
structure AfterL (s s' : Sys α) (n' : Nest α) : Prop where
  rel : RelB s' n'
  sibling : s'.b.sibling = n'.cur.lastId
  cells : s'.cells = s.cells
  handles : s'.handles = s.handles
  checkpoint : s'.b.checkpoint = s.b.checkpoint

theorem RelB.insertLeaf {s : Sys α} {n : Nest α} (h : RelB s n)
    (hsib : s.b.sibling = n.cur.lastId) (fl : Flavor)
    (hc : n.count < 2 ^ fl.width - 1) (d : α) (sp : Span) :
    ∃ T : Tree α, s.b.insert fl d sp = ({ s.b with tree := T, sibling := none }, .ok n.count) ∧
      T.indexes = s.b.tree.indexes ∧
      RelB { s with b := { s.b with tree := T, sibling := some n.count } } (n.addLeaf d sp) ∧
      some n.count = (n.addLeaf d sp).cur.lastId := by
  obtain ⟨T, e, ix, spn, tr⟩ :=
    h.tree.insertLeaf (fl := fl) (d := d) (sp := sp) h.parent hsib hc
  refine ⟨T, e, ix, ⟨tr, ?_, h.cursor, spn.trans h.span⟩, ?_⟩
  · show s.b.parent = _
    rw [h.parent]; exact (parOf_endParent _ _).symm
  · show some n.count = (n.cur ++ _).lastId
    rw [lastId_append]; rfl

theorem RelB.openWith {s : Sys α} {n : Nest α} (h : RelB s n)
    (hsib : s.b.sibling = n.cur.lastId) (fl : Flavor) (d : α) (sp : Span) :
    ∃ s', s.lift .id (s.b.openWith fl d sp) = (s', (n.openWith fl d sp).2) ∧
      AfterL s s' (n.openWith fl d sp).1 := by
  by_cases hc : n.count < 2 ^ fl.width - 1
  · obtain ⟨T, e, ix, spn, tr⟩ :=
      h.tree.insertOpen (fl := fl) (d := d) (sp := sp) h.parent hsib hc
    have hnf : ¬ (n.full fl = true) := not_full_iff.2 hc
    refine ⟨{ s with b := { s.b with tree := T, sibling := none, parent := some n.count } }, ?_, ?_⟩
    · simp only [Builder.openWith, e, Sys.lift, Nest.openWith, if_neg hnf, Except.map]
    · simp only [Nest.openWith, if_neg hnf]
      exact ⟨⟨tr, rfl, h.cursor, spn.trans h.span⟩, rfl, rfl, rfl, rfl⟩
  · have hf : n.full fl = true := full_iff.2 hc
    refine ⟨s, ?_, ?_⟩
    · simp only [Builder.openWith, insert_full (by rw [h.tree.len]; exact hc), Sys.lift,
        Nest.openWith, if_pos hf, Except.map]
    · simp only [Nest.openWith, if_pos hf]; exact ⟨h, hsib, rfl, rfl, rfl⟩

theorem RelB.token {s : Sys α} {n : Nest α} (h : RelB s n)
    (hsib : s.b.sibling = n.cur.lastId) (fl : Flavor) (d : α) (len : Nat) :
    ∃ s', s.lift .id (s.b.token fl d len) = (s', (n.token fl d len).2) ∧
      AfterL s s' (n.token fl d len).1 := by
  by_cases he : fl.ik.lenIsEmpty len = true
  · by_cases hc : n.count < 2 ^ fl.width - 1
    · have hnf : ¬ (n.full fl = true) := not_full_iff.2 hc
      obtain ⟨T, e, ix, r, hl⟩ := h.insertLeaf hsib fl hc d (Span.point n.cursor)
      refine ⟨{ s with b := { s.b with tree := T, sibling := some n.count } }, ?_, ?_⟩
      · have e' : s.b.insert fl d (Span.new s.b.cursor s.b.cursor) = _ := h.cursor ▸ e
        simp only [Builder.token, Nest.token, he, if_true, if_neg hnf, e', Sys.lift, Except.map]
      · simp only [Nest.token, he, if_true, if_neg hnf]; exact ⟨r, hl, rfl, rfl, rfl⟩
    · have hf : n.full fl = true := full_iff.2 hc
      refine ⟨s, ?_, ?_⟩
      · simp only [Builder.token, Nest.token, he, if_true, if_pos hf,
          insert_full (by rw [h.tree.len]; exact hc), Sys.lift, Except.map]
      · simp only [Nest.token, he, if_true, if_pos hf]; exact ⟨h, hsib, rfl, rfl, rfl⟩
  · cases ha : fl.ik.checkedAddLen n.cursor len with
    | none =>
      refine ⟨s, ?_, ?_⟩
      · simp only [Builder.token, Nest.token, if_neg he, h.cursor, ha, Sys.lift, Except.map]
      · simp only [Nest.token, if_neg he, ha]; exact ⟨h, hsib, rfl, rfl, rfl⟩
    | some c =>
      have h1 : RelB { s with b := { s.b with cursor := c, tree :=
          { s.b.tree with span := { s.b.tree.span with stop := c } } } }
          { n with cursor := c, stop := c } :=
        ⟨h.tree.congr rfl rfl rfl, h.parent, rfl, by simp [h.span]⟩
      by_cases hc : n.count < 2 ^ fl.width - 1
      · have hnf : ¬ (n.full fl = true) := not_full_iff.2 hc
        obtain ⟨T, e, ix, r, hl⟩ := h1.insertLeaf hsib fl hc d (Span.new n.cursor c)
        refine ⟨{ s with b := { s.b with cursor := c, tree := T.pushIndex fl ⟨c, n.count⟩, sibling := some n.count } }, ?_, ?_⟩
        · simp only [Builder.token, Nest.token, if_neg he, h.cursor, ha, if_neg hnf]
          simp only at e
          rw [e]
          simp only [Sys.lift, Except.map]
        · simp only [Nest.token, if_neg he, ha, if_neg hnf]
          obtain ⟨a1, a2, a4, a5⟩ := r
          refine ⟨⟨a1.congr ?_ ?_ ?_, a2, a4, ?_⟩, hl, rfl, rfl, rfl⟩
          · simp only [Tree.pushIndex]; split <;> rfl
          · simp only [Tree.pushIndex]; split <;> rfl
          · simp only [Tree.pushIndex]; split <;> rfl
          · refine Eq.trans ?_ a5; simp only [Tree.pushIndex]; split <;> rfl
      · have hf : n.full fl = true := full_iff.2 hc
        refine ⟨⟨⟨{ s.b.tree with span := { s.b.tree.span with stop := c } },
          s.b.checkpoint, s.b.parent, s.b.sibling, c⟩, s.cells, s.handles⟩, ?_, ?_⟩
        rotate_left
        · simp only [Nest.token, if_neg he, ha, if_pos hf]; exact ⟨h1, hsib, rfl, rfl, rfl⟩
        · have hfull : ∀ sp, (Builder.insert fl { s.b with cursor := c, tree :=
              { s.b.tree with span := { s.b.tree.span with stop := c } } } d sp) =
              ({ s.b with cursor := c, tree :=
                { s.b.tree with span := { s.b.tree.span with stop := c } } }, .error .overflow) :=
            fun sp => insert_full (by show ¬ s.b.tree.nodes.length < _; rw [h.tree.len]; exact hc)
          simp only [Builder.token, Nest.token, if_neg he, h.cursor, ha, if_pos hf, Sys.lift,
            Except.map, hfull]

theorem RelB.tokenWith {s : Sys α} {n : Nest α} (h : RelB s n)
    (hsib : s.b.sibling = n.cur.lastId) (fl : Flavor)
    (d : α) (sp : Span) (n' : Nest α) (o : Except Err Out)
    (hst : n.step fl (.tokenWith d sp) = some (n', o)) :
    ∃ s', s.step fl (.tokenWith d sp) = (s', o) ∧ AfterL s s' n' := by
  simp only [Nest.step, Option.some.injEq] at hst
  simp only [Sys.step]
  by_cases hc : n.count < 2 ^ fl.width - 1
  · have hnf : ¬ (n.full fl = true) := not_full_iff.2 hc
    rw [if_neg hnf] at hst
    obtain ⟨rfl, rfl⟩ := Prod.mk.inj hst
    obtain ⟨T, e, ix, r, hl⟩ := h.insertLeaf hsib fl hc d sp
    simp only [Builder.tokenWith, e, Sys.lift, Except.map]
    refine ⟨_, rfl, ?_⟩
    obtain ⟨a1, a2, a4, a5⟩ := r
    have hpar : s.b.parent = parOf (n.addLeaf d sp).stack := by
      rw [h.parent]; exact (parOf_endParent _ _).symm
    refine ⟨⟨?_, ?_, rfl, ?_⟩, hl, rfl, rfl, rfl⟩
    · simp only [hpar]
      refine TRepL.grow ?_ sp
      refine a1.congr ?_ ?_ ?_
      · simp only [Tree.pushIndex]; split <;> rfl
      · simp only [Tree.pushIndex]; split <;> rfl
      · simp only [Tree.pushIndex]; split <;> rfl
    · show s.b.parent = _
      rw [hpar]; exact (parOf_growParent _ _).symm
    · show (Tree.modifyOpt _ _ _).span = _
      have : ∀ (t : Tree α) (o : Option Nat) f, (t.modifyOpt o f).span = t.span := by
        intro t o f; cases o <;> rfl
      rw [this]
      refine Eq.trans ?_ a5
      simp only [Tree.pushIndex]; split <;> rfl
  · have hf : n.full fl = true := full_iff.2 hc
    rw [if_pos hf] at hst
    obtain ⟨rfl, rfl⟩ := Prod.mk.inj hst
    refine ⟨s, ?_, h, hsib, rfl, rfl, rfl⟩
    simp only [Builder.tokenWith, insert_full (by rw [h.tree.len]; exact hc), Sys.lift, Except.map]

/-- `close` needs no knowledge of where the next node goes, and provides it. -/
theorem RelB.close {s : Sys α} {n : Nest α} (h : RelB s n) (fl : Flavor)
    (n' : Nest α) (o : Except Err Out) (hst : n.step fl .close = some (n', o)) :
    (n.stack = [] ∧ n' = n ∧ s.step fl .close = (s, o)) ∨
    (n.stack ≠ [] ∧ ∃ s', s.step fl .close = (s', o) ∧ AfterL s s' n') := by
  simp only [Nest.step, Option.some.injEq] at hst
  simp only [Sys.step, Builder.close]
  have hp := h.parent
  unfold Nest.frame at hp
  cases hstk : n.stack with
  | nil =>
    rw [hstk] at hst hp
    simp only at hst
    obtain ⟨rfl, rfl⟩ := Prod.mk.inj hst
    simp only [List.head?_nil, Option.map_none] at hp
    refine Or.inl ⟨rfl, rfl, ?_⟩
    rw [hp]; simp [Sys.lift, Except.map]
  | cons p st =>
    obtain ⟨x, left⟩ := p
    rw [hstk] at hst hp
    simp only at hst
    obtain ⟨rfl, rfl⟩ := Prod.mk.inj hst
    simp only [List.head?_cons, Option.map_some] at hp
    have htr := h.tree
    rw [hstk] at htr
    have hx := htr.ctx.1
    obtain ⟨l, hl, hx⟩ := hx
    have hpop := htr.pop
    have hgrow := hpop.grow x.span
    rw [hp]
    simp only [hx]
    have hlast : some x.id = (left ++ single x n.cur).lastId := by rw [lastId_append]; rfl
    refine Or.inr ⟨by simp, ?_⟩
    cases hpar : parOf st with
    | none =>
      refine ⟨⟨⟨s.b.tree, s.b.checkpoint, none, some x.id, x.span.stop⟩, s.cells, s.handles⟩,
        ?_, ?_⟩
      · have : (mkLinks x (parOf st) left.lastId none n.cur.headId l).parent = none := hpar
        simp only [this]; rfl
      · rw [hpar] at hgrow
        refine ⟨⟨hgrow, ?_, rfl, h.span⟩, hlast, rfl, rfl, rfl⟩
        show none = _
        rw [← hpar]; exact (parOf_growParent _ _).symm
    | some q =>
      have hq : q < s.b.tree.len := by
        rw [Tree.len, h.tree.len]
        refine htr.lt (List.mem_append_right _ ?_)
        simp [stackIds, parOf_mem hpar]
      refine ⟨⟨⟨s.b.tree.modifyNode q (fun p => { p with span := p.span.join x.span }),
        s.b.checkpoint, some q, some x.id, x.span.stop⟩, s.cells, s.handles⟩, ?_, ?_⟩
      · have : (mkLinks x (parOf st) left.lastId none n.cur.headId l).parent = some q := hpar
        simp only [this, if_pos hq]; rfl
      · rw [hpar] at hgrow
        refine ⟨⟨hgrow, ?_, rfl, h.span⟩, hlast, rfl, rfl, rfl⟩
        show some q = _
        rw [← hpar]; exact (parOf_growParent _ _).symm

end Syntree
