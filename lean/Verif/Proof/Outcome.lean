import Verif.Proof.World
import Verif.Spec.Outcome
import Verif.Spec.History

/-! Results and effects of calls on any reachable builder. -/

namespace Syntree

variable {α : Type}

/-- The invariant of a builder in its environment. -/
structure Good (fl : Flavor) (s : Sys α) (st : List Nat) : Prop where
  wf : WFB fl s.b st
  cells : CellsOk s.cells
  handles : ∀ (k c : Nat), s.handles[k]? = some c → c < s.cells.length
  ckpt : ∀ c : Nat, s.b.checkpoint = some c → c < s.cells.length

theorem Good.init (fl : Flavor) : Good fl (Sys.init : Sys α) [] :=
  ⟨WFB.init fl, by simp [CellsOk, Sys.init], by simp [Sys.init], by simp [Sys.init, Builder.new]⟩

/-- What a step may do to the heap of cells: old cells keep their number. -/
structure Effect (fl : Flavor) (s s' : Sys α) (st st' : List Nat) (op : Op α)
    (o : Except Err Out) : Prop where
  good : Good fl s' st'
  depth : st'.length = depthAfter st.length op o
  more : s.cells.length ≤ s'.cells.length
  hmore : ∀ (k : Nat) (c : Nat), s.handles[k]? = some c → s'.handles[k]? = some c
  len : s'.b.tree.nodes.length = s.b.tree.nodes.length + nodesAdded o
  cell : ∀ (c : Nat) (cell : Cell), s'.cells[c]? = some cell → s.cells[c]? = some cell ∨
    cell.node = s.b.tree.nodes.length
  opened : st' = openAfter st op o

theorem insert_none {fl : Flavor} {b : Builder α} {d : α} {sp : Span}
    (h : ¬ b.tree.nodes.length < 2 ^ fl.width - 1) : b.insert fl d sp = (b, .error .overflow) := by
  simp only [Builder.insert, Tree.len]
  rw [ptrNew_eq, if_neg h]

theorem Good.refl {fl : Flavor} {s : Sys α} {st : List Nat} (h : Good fl s st) {op : Op α}
    {o : Except Err Out} (hd : depthAfter st.length op o = st.length) (ho : nodesAdded o = 0)
    (hs : openAfter st op o = st) : Effect fl s s st st op o :=
  ⟨h, hd.symm, Nat.le_refl _, fun _ _ h => h, by rw [ho]; rfl, fun _ _ h => .inl h, hs.symm⟩

theorem openAfter_err (st : List Nat) (op : Op α) (e : Err) : openAfter st op (.error e) = st := by
  cases op <;> rfl

theorem depthAfter_error (n : Nat) (op : Op α) (e : Err) : depthAfter n op (.error e) = n := by
  cases op <;> rfl

theorem newNode_pos {fl : Flavor} {n : Nat} (h : n < 2 ^ fl.width - 1) :
    newNode fl n = .ok (.id n) := if_pos h

theorem newNode_neg {fl : Flavor} {n : Nat} (h : ¬ n < 2 ^ fl.width - 1) :
    newNode fl n = .error .overflow := if_neg h

/-- A builder with the same tables but other `cursor` or spans. -/
theorem WFB.same {fl : Flavor} {b b' : Builder α} {st : List Nat} (h : WFB fl b st)
    (hn : b'.tree.nodes = b.tree.nodes) (hp : b'.parent = b.parent)
    (hs : ∀ j, b'.sibling = some j → j < b.tree.nodes.length) : WFB fl b' st :=
  ⟨hn ▸ h.cap, hn ▸ h.nok, hn ▸ hs, hp ▸ h.top, hn ▸ h.chain⟩

theorem Good.openWith {fl : Flavor} {s : Sys α} {st : List Nat} (h : Good fl s st) (op : Op α)
    (d : α) (sp : Span) (hop : depthAfter st.length op (newNode fl s.b.tree.len) =
      if s.b.tree.len < 2 ^ fl.width - 1 then st.length + 1 else st.length)
    (hos : ∀ i, openAfter st op (.ok (.id i)) = i :: st) :
    (s.lift .id (s.b.openWith fl d sp)).2 = newNode fl s.b.tree.len ∧
    ∃ st', Effect fl s (s.lift .id (s.b.openWith fl d sp)).1 st st' op
      (newNode fl s.b.tree.len) := by
  unfold Builder.openWith
  by_cases hc : s.b.tree.nodes.length < 2 ^ fl.width - 1
  · obtain ⟨b', e, e1, e2, e3, e4, e5, e6, e7, e8, e9⟩ := h.wf.insert hc d sp
    rw [e]
    simp only [Sys.lift, Tree.len]
    refine ⟨by rw [newNode_pos hc]; rfl, s.b.tree.nodes.length :: st, ?_⟩
    refine ⟨⟨e9, h.cells, h.handles, by simpa [e5] using h.ckpt⟩, ?_, Nat.le_refl _,
      fun _ _ h => h, by rw [newNode_pos hc]; exact e1, fun _ _ h => .inl h,
      by rw [newNode_pos hc, hos]⟩
    rw [Tree.len, if_pos hc] at hop; rw [hop]; rfl
  · rw [insert_none hc]
    simp only [Sys.lift, Tree.len]
    refine ⟨by rw [newNode_neg hc]; rfl, st, h.refl ?_ (by rw [newNode_neg hc]; rfl)
      (by rw [newNode_neg hc, openAfter_err])⟩
    rw [newNode_neg hc, depthAfter_error]

theorem pushIndex_nodes (fl : Flavor) (t : Tree α) (i : TreeIndex) :
    (t.pushIndex fl i).nodes = t.nodes := by
  unfold Tree.pushIndex; split <;> rfl

theorem Good.token {fl : Flavor} {s : Sys α} {st : List Nat} (h : Good fl s st) (op : Op α)
    (hop : ∀ o, depthAfter st.length op o = st.length) (hos : ∀ o, openAfter st op o = st)
    (d : α) (len : Nat) :
    (s.lift .id (s.b.token fl d len)).2 = expected fl s (.token d len) ∧
    ∃ st', Effect fl s (s.lift .id (s.b.token fl d len)).1 st st' op
      (expected fl s (.token d len)) := by
  unfold Builder.token
  simp only [expected]
  cases he : fl.ik.lenIsEmpty len with
  | true =>
    simp only [if_true, Bool.true_eq_false, false_and, if_false]
    by_cases hc : s.b.tree.nodes.length < 2 ^ fl.width - 1
    · obtain ⟨b', e, e1, e2, e3, e4, e5, e6, e7, e8, e9⟩ :=
        h.wf.insert hc d (Span.new s.b.cursor s.b.cursor)
      rw [e]
      simp only [Sys.lift, Tree.len]
      refine ⟨by rw [newNode_pos hc]; rfl, st, ?_⟩
      refine ⟨⟨e8.same rfl rfl ?_, h.cells, h.handles, by simpa [e5] using h.ckpt⟩, (hop _).symm,
        Nat.le_refl _, fun _ _ h => h, by rw [newNode_pos hc]; exact e1, fun _ _ h => .inl h, (hos _).symm⟩
      intro j hj; simp at hj; omega
    · rw [insert_none hc]
      simp only [Sys.lift, Tree.len]
      exact ⟨by rw [newNode_neg hc]; rfl, st, h.refl (hop _) (by rw [newNode_neg hc]; rfl) (hos _)⟩
  | false =>
    simp only [Bool.false_eq_true, if_false, true_and]
    cases ha : fl.ik.checkedAddLen s.b.cursor len with
    | none =>
      simp only [if_true, Sys.lift]
      exact ⟨rfl, st, h.refl (hop _) rfl (hos _)⟩
    | some c =>
      simp only [reduceCtorEq, if_false]
      generalize hb1 : ({ s.b with
          cursor := c, tree := { s.b.tree with span := { s.b.tree.span with stop := c } } } :
          Builder α) = b1
      have hwf : WFB fl b1 st := by
        subst hb1; exact h.wf.same rfl rfl h.wf.sib
      have hlen : b1.tree.nodes.length = s.b.tree.nodes.length := by subst hb1; rfl
      have hck : b1.checkpoint = s.b.checkpoint := by subst hb1; rfl
      by_cases hc : b1.tree.nodes.length < 2 ^ fl.width - 1
      · obtain ⟨b', e, e1, e2, e3, e4, e5, e6, e7, e8, e9⟩ :=
          hwf.insert hc d (Span.new s.b.cursor c)
        rw [e]
        simp only [Sys.lift, Tree.len, ← hlen]
        refine ⟨by rw [newNode_pos hc]; rfl, st, ?_⟩
        refine ⟨⟨e8.same (pushIndex_nodes _ _ _) rfl ?_, h.cells, h.handles,
          by simpa [e5, hck] using h.ckpt⟩, (hop _).symm, Nat.le_refl _, fun _ _ h => h, ?_,
          fun _ _ h => .inl h, (hos _).symm⟩
        · intro j hj; simp at hj; omega
        · rw [newNode_pos hc, ← hlen]; simp only [pushIndex_nodes]; exact e1
      · rw [insert_none hc]
        simp only [Sys.lift, Tree.len, ← hlen]
        refine ⟨by rw [newNode_neg hc]; rfl, st, ?_⟩
        exact ⟨⟨hwf, h.cells, h.handles, by simpa [hck] using h.ckpt⟩, (hop _).symm,
          Nat.le_refl _, fun _ _ h => h, by rw [newNode_neg hc]; exact hlen, fun _ _ h => .inl h, (hos _).symm⟩

theorem Good.tokenWith {fl : Flavor} {s : Sys α} {st : List Nat} (h : Good fl s st) (d : α)
    (sp : Span) :
    (s.step fl (.tokenWith d sp)).2 = newNode fl s.b.tree.len ∧
    ∃ st', Effect fl s (s.step fl (.tokenWith d sp)).1 st st' (.tokenWith d sp)
      (newNode fl s.b.tree.len) := by
  simp only [Sys.step, Builder.tokenWith]
  by_cases hc : s.b.tree.nodes.length < 2 ^ fl.width - 1
  · obtain ⟨b', e, e1, e2, e3, e4, e5, e6, e7, e8, e9⟩ := h.wf.insert hc d sp
    rw [e]
    simp only [Sys.lift, Tree.len]
    refine ⟨by rw [newNode_pos hc]; rfl, st, ?_⟩
    refine ⟨⟨?_, h.cells, h.handles, by simpa [e5] using h.ckpt⟩, rfl, Nat.le_refl _,
      fun _ _ h => h, ?_, fun _ _ h => .inl h, rfl⟩
    rotate_left
    · rw [newNode_pos hc]
      cases b'.parent <;> simp only [Tree.modifyOpt, Tree.modifyNode, List.length_modify,
        pushIndex_nodes] <;> exact e1
    cases hp : b'.parent with
    | none =>
      simp only [Tree.modifyOpt]
      refine e8.same (pushIndex_nodes _ _ _) hp.symm ?_
      intro j hj; simp at hj; omega
    | some p =>
      simp only [Tree.modifyOpt, Tree.modifyNode]
      have hpl := e8.parent_lt hp
      refine ⟨?_, ?_, ?_, ?_, ?_⟩
      · simp only [List.length_modify, pushIndex_nodes]; exact e8.cap
      · simp only [pushIndex_nodes]
        exact e8.nok.modify p _ (fun l => ⟨.inl rfl, .inl rfl⟩)
      · intro j hj; simp at hj; simp only [List.length_modify, pushIndex_nodes]; omega
      · exact hp ▸ e8.top
      · simp only [pushIndex_nodes]
        exact e8.chain.modify p _ (fun _ => rfl)
  · rw [insert_none hc]
    simp only [Sys.lift, Tree.len]
    exact ⟨by rw [newNode_neg hc]; rfl, st, h.refl rfl (by rw [newNode_neg hc]; rfl) rfl⟩

theorem Good.close {fl : Flavor} {s : Sys α} {st : List Nat} (h : Good fl s st) :
    (s.step fl .close).2 = expected fl s .close ∧
    ∃ st', Effect fl s (s.step fl .close).1 st st' .close (expected fl s .close) := by
  simp only [Sys.step, Builder.close, expected]
  cases st with
  | nil =>
    have hp : s.b.parent = none := h.wf.top
    rw [hp]
    simp only [Sys.lift, if_true]
    refine ⟨rfl, [], ?_⟩
    have : ({ s with b := s.b } : Sys α) = s := rfl
    exact h.refl rfl rfl rfl
  | cons head st =>
    have hp : s.b.parent = some head := h.wf.top
    obtain ⟨⟨l, hl, hpar⟩, hlt, hch⟩ := h.wf.chain
    rw [hp]
    simp only [hl, reduceCtorEq, if_false]
    have hhl := (List.getElem?_eq_some_iff.1 hl).1
    cases hx : l.parent with
    | none =>
      simp only [Sys.lift]
      refine ⟨rfl, st, ⟨⟨h.wf.cap, h.wf.nok, ?_, ?_, hch⟩, h.cells, h.handles, h.ckpt⟩, ?_,
        Nat.le_refl _, fun _ _ h => h, rfl, fun _ _ h => .inl h, rfl⟩
      · intro j hj; simp at hj; subst hj; exact hhl
      · rw [← hpar, hx]
      · rfl
    | some id =>
      have hid := h.wf.nok.par _ _ id hl hx
      simp only [Tree.len, hid, if_true, Sys.lift]
      refine ⟨rfl, st, ⟨⟨?_, ?_, ?_, ?_, ?_⟩, h.cells, h.handles, h.ckpt⟩, ?_,
        Nat.le_refl _, fun _ _ h => h, by simp [Tree.modifyNode, nodesAdded],
        fun _ _ h => .inl h, rfl⟩
      · simp only [Tree.modifyNode, List.length_modify]; exact h.wf.cap
      · exact h.wf.nok.modify id _ (fun l => ⟨.inl rfl, .inl rfl⟩)
      · intro j hj; simp at hj; subst hj
        simp only [Tree.modifyNode, List.length_modify]; exact hhl
      · rw [← hpar, hx]
      · exact hch.modify id _ (fun _ => rfl)
      · rfl

theorem Good.checkpoint {fl : Flavor} {s : Sys α} {st : List Nat} (h : Good fl s st) :
    (s.step fl .checkpoint).2 = expected fl s .checkpoint ∧
    ∃ st', Effect fl s (s.step fl .checkpoint).1 st st' .checkpoint (expected fl s .checkpoint) := by
  simp only [Sys.step, expected, Builder.mkCheckpoint, Tree.len]
  rw [ptrNew_eq]
  by_cases hc : s.b.tree.nodes.length < 2 ^ fl.width - 1
  · simp only [hc, if_true]
    have hfresh : Effect fl s ⟨{ s.b with checkpoint := some s.cells.length },
        s.cells ++ [⟨s.b.tree.nodes.length, s.b.parent⟩], s.handles ++ [s.cells.length]⟩ st st
        .checkpoint (.ok (.handle s.handles.length)) := by
      refine ⟨⟨h.wf.same rfl rfl h.wf.sib, ?_, ?_, ?_⟩, rfl, by simp, ?_, rfl, ?_, rfl⟩
      · intro c cell p hcell hp
        rcases Nat.lt_or_ge c s.cells.length with hlt | hge
        · rw [List.getElem?_append_left hlt] at hcell; exact h.cells c cell p hcell hp
        · rw [List.getElem?_append_right hge] at hcell
          rcases Nat.eq_zero_or_pos (c - s.cells.length) with h0 | h0
          · rw [h0] at hcell; simp at hcell; subst hcell; exact h.wf.parent_lt hp
          · rw [List.getElem?_eq_none (by simp; omega)] at hcell; simp at hcell
      · intro k c hk
        simp only [List.length_append, List.length_singleton]
        rcases Nat.lt_or_ge k s.handles.length with hlt | hge
        · rw [List.getElem?_append_left hlt] at hk; have := h.handles k c hk; omega
        · rw [List.getElem?_append_right hge] at hk
          rcases Nat.eq_zero_or_pos (k - s.handles.length) with h0 | h0
          · rw [h0] at hk; simp at hk; omega
          · rw [List.getElem?_eq_none (by simp; omega)] at hk; simp at hk
      · intro c hc; simp at hc; simp; omega
      · intro k c hk
        rw [List.getElem?_append_left (List.getElem?_eq_some_iff.1 hk).1]; exact hk
      · intro c cell hcell
        rcases Nat.lt_or_ge c s.cells.length with hlt | hge
        · rw [List.getElem?_append_left hlt] at hcell; exact .inl hcell
        · rw [List.getElem?_append_right hge] at hcell
          rcases Nat.eq_zero_or_pos (c - s.cells.length) with h0 | h0
          · rw [h0] at hcell; simp at hcell; subst hcell; exact .inr rfl
          · rw [List.getElem?_eq_none (by simp; omega)] at hcell; simp at hcell
    cases hck : s.b.checkpoint with
    | none => exact ⟨rfl, st, hfresh⟩
    | some c =>
      simp only
      cases hcell : s.cells[c]? with
      | none => exact ⟨rfl, st, hfresh⟩
      | some cell =>
        simp only
        by_cases he : cell.node = s.b.tree.nodes.length ∧ cell.parent = s.b.parent
        · rw [if_pos he]
          refine ⟨rfl, st, ⟨h.wf, h.cells, ?_, h.ckpt⟩, rfl, Nat.le_refl _, ?_, rfl, fun _ _ h => .inl h, rfl⟩
          · intro k c' hk
            simp only at hk ⊢
            rcases Nat.lt_or_ge k s.handles.length with hlt | hge
            · rw [List.getElem?_append_left hlt] at hk; exact h.handles k c' hk
            · rw [List.getElem?_append_right hge] at hk
              rcases Nat.eq_zero_or_pos (k - s.handles.length) with h0 | h0
              · rw [h0] at hk; simp at hk; subst hk; exact h.ckpt _ hck
              · rw [List.getElem?_eq_none (by simp; omega)] at hk; simp at hk
          · intro k c' hk
            rw [List.getElem?_append_left (List.getElem?_eq_some_iff.1 hk).1]; exact hk
        · rw [if_neg he]
          exact ⟨rfl, st, hfresh⟩
  · simp only [hc, if_false]
    exact ⟨trivial, st, h.refl rfl rfl rfl⟩

theorem Good.closeAt {fl : Flavor} {s : Sys α} {st : List Nat} (h : Good fl s st) (op : Op α)
    (hop : ∀ o, depthAfter st.length op o = st.length) (hos : ∀ o, openAfter st op o = st)
    (k : Nat) (d : α) (explicit : Option Span) :
    let r : Sys α × Except Err Out := match s.handles[k]? with
      | none => (s, .ok .unit)
      | some c =>
        let r := s.b.closeAtCore fl s.cells c d explicit
        ({ s with b := r.2.1, cells := r.1 }, r.2.2.map .id)
    r.2 = expectedCloseAt fl s k ∧ ∃ st', Effect fl s r.1 st st' op (expectedCloseAt fl s k) := by
  unfold expectedCloseAt
  cases hk : s.handles[k]? with
  | none => exact ⟨rfl, st, h.refl (hop _) rfl (hos _)⟩
  | some c =>
    have hcl := h.handles k c hk
    obtain ⟨cell, hcell⟩ : ∃ cell, s.cells[c]? = some cell := ⟨_, List.getElem?_eq_getElem hcl⟩
    simp only [hcell]
    by_cases hp : cell.parent = s.b.parent
    · by_cases hroom : s.b.tree.nodes.length < 2 ^ fl.width - 1
      · obtain ⟨cells', b', e, e1, e2, e3, e4, e5, e6, e7⟩ :=
          h.wf.closeAt h.cells hcell hp hroom d explicit
        rw [e]
        have hck : b'.checkpoint = s.b.checkpoint := by
          have : (s.b.closeAtCore fl s.cells c d explicit).2.1.checkpoint = s.b.checkpoint := by
            unfold Builder.closeAtCore
            rw [hcell]
            simp only [hp, ne_eq, not_true_eq_false, if_false, Tree.len]
            rw [ptrNew_eq, if_pos hroom]
            simp only
            cases s.b.tree.nodes[cell.node]? with
            | none =>
              simp only
              obtain ⟨b2, e, _, _, _, _, e5, _⟩ :=
                h.wf.insert hroom d (explicit.getD (Span.point s.b.cursor))
              rw [e]
              simp only
              split <;> exact e5
            | some links =>
              simp only
              split <;> rfl
          rw [e] at this; exact this
        simp only [hp, ne_eq, not_true_eq_false, if_false, Tree.len, hroom, true_and]
        refine ⟨?_, st, ⟨e3, e1, ?_, ?_⟩, (hop _).symm, Nat.le_of_eq e2.symm, fun _ _ h => h, ?_, ?_,
          (hos _).symm⟩
        · by_cases hle : cell.node ≤ s.b.tree.nodes.length
          · rw [if_pos hle, if_neg (by omega), newNode_pos hroom]; rfl
          · rw [if_neg hle, if_pos (by omega)]; rfl
        · intro k c hk; simp only [e2]; exact h.handles k c hk
        · intro c hc; simp only [e2]; exact h.ckpt c (hck ▸ hc)
        · rw [newNode_pos hroom]; split <;> exact e4
        · intro c' cell' hc'
          by_cases hcc : c' = c
          · subst hcc
            rcases e7 cell' hc' with rfl | h7
            · exact .inl hcell
            · exact .inr h7
          · exact .inl (by rw [← e6 c' hcc]; exact hc')
      · have e : s.b.closeAtCore fl s.cells c d explicit = (s.cells, s.b, .error .overflow) := by
          unfold Builder.closeAtCore
          rw [hcell]
          simp only [hp, ne_eq, not_true_eq_false, if_false, Tree.len]
          rw [ptrNew_eq, if_neg hroom]
        rw [e]
        simp only [hp, ne_eq, not_true_eq_false, if_false, Tree.len, hroom, false_and]
        rw [newNode_neg hroom]
        exact ⟨rfl, st, h.refl (hop _) rfl (hos _)⟩
    · have e : s.b.closeAtCore fl s.cells c d explicit =
          (s.cells, s.b, .error .closeAtError) := by
        unfold Builder.closeAtCore
        rw [hcell]
        simp only [ne_eq, hp, not_false_eq_true, if_true]
      rw [e]
      simp only [ne_eq, hp, not_false_eq_true, if_true]
      exact ⟨rfl, st, h.refl (hop _) rfl (hos _)⟩

/-- Every call on a good builder: its result, and that it stays good. -/
theorem Good.step {fl : Flavor} {s : Sys α} {st : List Nat} (h : Good fl s st) (op : Op α) :
    (s.step fl op).2 = expected fl s op ∧
    ∃ st', Effect fl s (s.step fl op).1 st st' op (expected fl s op) := by
  cases op with
  | «open» d =>
    refine h.openWith (.open d) d _ ?_ (fun _ => rfl)
    unfold newNode; split <;> rfl
  | openWith d sp =>
    refine h.openWith (.openWith d sp) d sp ?_ (fun _ => rfl)
    unfold newNode; split <;> rfl
  | close => exact h.close
  | token d n => exact h.token _ (fun o => by cases o <;> rfl) (fun o => by cases o <;> rfl) d n
  | tokenEmpty d =>
    have := h.token (.tokenEmpty d) (fun o => by cases o <;> rfl) (fun o => by cases o <;> rfl) d 0
    have he : fl.ik.lenIsEmpty 0 = true := by cases fl.ik <;> rfl
    simp only [expected, he, Bool.true_eq_false, false_and, if_false] at this
    exact this
  | tokenWith d sp => exact h.tokenWith d sp
  | checkpoint => exact h.checkpoint
  | closeAt k d => exact h.closeAt (.closeAt k d) (fun o => by cases o <;> rfl) (fun o => by cases o <;> rfl) k d none
  | closeAtWith k d sp =>
    exact h.closeAt (.closeAtWith k d sp) (fun o => by cases o <;> rfl) (fun o => by cases o <;> rfl) k d (some sp)
  | setCursor i =>
    exact ⟨rfl, st, ⟨h.wf.same rfl rfl h.wf.sib, h.cells, h.handles, h.ckpt⟩, rfl, Nat.le_refl _,
      fun _ _ h => h, rfl, fun _ _ h => .inl h, rfl⟩

/-! ## Histories of one builder -/

theorem Sys.run_append (fl : Flavor) (s : Sys α) (ops ops' : List (Op α)) :
    s.run fl (ops ++ ops') = (((s.run fl ops).1.run fl ops').1,
      (s.run fl ops).2 ++ ((s.run fl ops).1.run fl ops').2) := by
  induction ops generalizing s with
  | nil => rfl
  | cons op ops ih => simp only [List.cons_append, Sys.run, ih]

theorem Good.run {fl : Flavor} {s : Sys α} {st : List Nat} (h : Good fl s st) (ops : List (Op α)) :
    ∃ st', Good fl (s.run fl ops).1 st' := by
  induction ops generalizing s st with
  | nil => exact ⟨st, h⟩
  | cons op ops ih =>
    obtain ⟨_, st', h'⟩ := h.step op
    exact ih h'.good

/-! ## Worlds -/

/-- The invariant of a world; `sts` are the open nodes of its builders. -/
structure GoodW (w : World α) (sts : List (List Nat)) : Prop where
  len : sts.length = w.builders.length
  good : ∀ (i : Nat) (fl : Flavor) (b : Builder α) (st : List Nat),
    w.builders[i]? = some (fl, b) → sts[i]? = some st → Good fl ⟨b, w.cells, w.handles⟩ st
  cells : CellsOk w.cells
  handles : ∀ (k c : Nat), w.handles[k]? = some c → c < w.cells.length

theorem GoodW.init : GoodW (World.init : World α) [] :=
  ⟨rfl, by simp, by simp [CellsOk, World.init], by simp [World.init]⟩

theorem GoodW.get {w : World α} {sts : List (List Nat)} (h : GoodW w sts) {i : Nat} {fl : Flavor}
    {b : Builder α} (hb : w.builders[i]? = some (fl, b)) :
    ∃ st, sts[i]? = some st ∧ Good fl ⟨b, w.cells, w.handles⟩ st := by
  have hi : i < sts.length := by rw [h.len]; exact (List.getElem?_eq_some_iff.1 hb).1
  exact ⟨_, List.getElem?_eq_getElem hi, h.good i fl b _ hb (List.getElem?_eq_getElem hi)⟩

theorem GoodW.snoc {w : World α} {sts : List (List Nat)} (h : GoodW w sts) {fl : Flavor}
    {b : Builder α} {st : List Nat} (hg : Good fl ⟨b, w.cells, w.handles⟩ st) :
    GoodW { w with builders := w.builders ++ [(fl, b)] } (sts ++ [st]) := by
  refine ⟨by simp [h.len], ?_, h.cells, h.handles⟩
  intro i fl' b' st' hb hs
  rcases Nat.lt_or_ge i w.builders.length with hlt | hge
  · rw [List.getElem?_append_left hlt] at hb
    rw [List.getElem?_append_left (by rw [h.len]; exact hlt)] at hs
    exact h.good i fl' b' st' hb hs
  · rw [List.getElem?_append_right hge] at hb
    rw [List.getElem?_append_right (by rw [h.len]; exact hge), h.len] at hs
    rcases Nat.eq_zero_or_pos (i - w.builders.length) with h0 | h0
    · rw [h0] at hb hs; simp at hb hs
      obtain ⟨rfl, rfl⟩ := hb; subst hs; exact hg
    · rw [List.getElem?_eq_none (by simp; omega)] at hb; simp at hb

/-- A step of a good world. -/
theorem GoodW.step {w : World α} {sts : List (List Nat)} (h : GoodW w sts) (op : WOp α) :
    ∃ sts', GoodW (w.step op).1 sts' ∧
      sts'.map List.length = worldDepths (sts.map List.length) [op] [(w.step op).2] := by
  cases op with
  | new fl =>
    refine ⟨sts ++ [[]], h.snoc ⟨WFB.init fl, h.cells, h.handles, by simp [Builder.new]⟩, ?_⟩
    simp [worldDepths]
  | clone i =>
    simp only [World.step]
    cases hb : w.builders[i]? with
    | none =>
      have hs : sts[i]? = none := by
        rw [List.getElem?_eq_none_iff, h.len]; exact List.getElem?_eq_none_iff.1 hb
      exact ⟨sts, h, by simp [worldDepths, hs]⟩
    | some p =>
      obtain ⟨fl, b⟩ := p
      obtain ⟨st, hst, hg⟩ := h.get hb
      exact ⟨sts ++ [st], h.snoc hg, by simp [worldDepths, hst]⟩
  | call i op =>
    simp only [World.step]
    cases hb : w.builders[i]? with
    | none => exact ⟨sts, h, by simp [worldDepths]⟩
    | some p =>
      obtain ⟨fl, b⟩ := p
      obtain ⟨st, hst, hg⟩ := h.get hb
      obtain ⟨hres, st', he⟩ := hg.step op
      have hi := (List.getElem?_eq_some_iff.1 hb).1
      have hi' := (List.getElem?_eq_some_iff.1 hst).1
      refine ⟨sts.set i st', ⟨by simp [h.len], ?_, he.good.cells, he.good.handles⟩, ?_⟩
      · intro j fl' b' st2 hb' hs'
        by_cases hij : i = j
        · subst hij
          simp only [List.getElem?_set_self hi, Option.some.injEq, Prod.mk.injEq] at hb'
          rw [List.getElem?_set_self hi'] at hs'
          obtain ⟨rfl, rfl⟩ := hb'
          simp at hs'; subst hs'
          exact he.good
        · simp only [List.getElem?_set_ne hij] at hb' hs'
          have := h.good j fl' b' st2 hb' hs'
          refine ⟨this.wf, he.good.cells, he.good.handles, ?_⟩
          intro c hc
          exact Nat.lt_of_lt_of_le (this.ckpt c hc) he.more
      · simp only [worldDepths]
        rw [hres, List.map_set, he.depth]
        apply List.ext_getElem?
        intro j
        rw [List.getElem?_set, List.getElem?_modify]
        by_cases hij : i = j
        · subst hij
          have : sts[i] = st := (List.getElem?_eq_some_iff.1 hst).2
          simp [hi', this]
        · simp [hij]

theorem worldDepths_cons (ds : List Nat) (op : WOp α) (ops : List (WOp α))
    (o : Option (Except Err Out)) (os : List (Option (Except Err Out))) :
    worldDepths ds (op :: ops) (o :: os) = worldDepths (worldDepths ds [op] [o]) ops os := by
  cases op with
  | new fl => rfl
  | clone i =>
    simp only [worldDepths]
    cases ds[i]? <;> rfl
  | call i op => cases o <;> rfl

theorem GoodW.run {w : World α} {sts : List (List Nat)} (h : GoodW w sts) (ops : List (WOp α)) :
    ∃ sts', GoodW (w.run ops).1 sts' ∧
      sts'.map List.length = worldDepths (sts.map List.length) ops (w.run ops).2 := by
  induction ops generalizing w sts with
  | nil => exact ⟨sts, h, by simp [worldDepths, World.run]⟩
  | cons op ops ih =>
    obtain ⟨sts1, h1, e1⟩ := h.step op
    obtain ⟨sts2, h2, e2⟩ := ih h1
    refine ⟨sts2, h2, ?_⟩
    simp only [World.run]
    rw [worldDepths_cons, ← e1]; exact e2

/-! ## Failing calls -/

/-- A call that fails leaves everything as it was, with two exceptions. -/
theorem Good.fail {fl : Flavor} {s : Sys α} {st : List Nat} (h : Good fl s st) {op : Op α}
    {e : Err} (he : (s.step fl op).2 = .error e) :
    (s.step fl op).1 = s ∨
    (∃ d len c, op = .token d len ∧ fl.ik.lenIsEmpty len = false ∧
      fl.ik.checkedAddLen s.b.cursor len = some c ∧ ¬ s.b.tree.len < 2 ^ fl.width - 1 ∧
      e = .overflow ∧
      (s.step fl op).1 = { s with b := { s.b with
        cursor := c, tree := { s.b.tree with span := { s.b.tree.span with stop := c } } } }) ∨
    (∃ m, e = .missingNode m) := by
  rw [(h.step op).1] at he
  cases op with
  | «open» d =>
    left
    simp only [expected, newNode] at he
    split at he
    · simp at he
    · rename_i hc
      simp only [Sys.step, Builder.open, Builder.openWith, insert_none hc]; rfl
  | openWith d sp =>
    left
    simp only [expected, newNode] at he
    split at he
    · simp at he
    · rename_i hc
      simp only [Sys.step, Builder.openWith, insert_none hc]; rfl
  | close =>
    left
    simp only [expected] at he
    split at he
    · rename_i hp
      simp only [Sys.step, Builder.close, hp, Sys.lift]
    · simp at he
  | token d len =>
    simp only [expected] at he
    split at he
    · rename_i hc
      left
      simp only [Sys.step, Builder.token, hc.1, hc.2, Sys.lift, Bool.false_eq_true, if_false]
    · rename_i hc
      simp only [newNode] at he
      split at he
      · simp at he
      · rename_i hfull
        simp at he; subst he
        cases hle : fl.ik.lenIsEmpty len with
        | true =>
          left
          simp only [Sys.step, Builder.token, hle, if_true, insert_none hfull]; rfl
        | false =>
          cases ha : fl.ik.checkedAddLen s.b.cursor len with
          | none => exact absurd ⟨hle, ha⟩ hc
          | some c =>
            right; left
            refine ⟨d, len, c, rfl, hle, ha, hfull, rfl, ?_⟩
            simp only [Sys.step, Builder.token, hle, ha, Bool.false_eq_true, if_false]
            rw [insert_none (by exact hfull)]
            rfl
  | tokenEmpty d =>
    left
    simp only [expected, newNode] at he
    split at he
    · simp at he
    · rename_i hc
      have hle : fl.ik.lenIsEmpty 0 = true := by cases fl.ik <;> rfl
      simp only [Sys.step, Builder.tokenEmpty, Builder.token, hle, if_true, insert_none hc]; rfl
  | tokenWith d sp =>
    left
    simp only [expected, newNode] at he
    split at he
    · simp at he
    · rename_i hc
      simp only [Sys.step, Builder.tokenWith, insert_none hc]; rfl
  | checkpoint =>
    left
    simp only [expected] at he
    split at he
    · simp at he
    · rename_i hc
      simp only [Sys.step, Builder.mkCheckpoint]
      rw [ptrNew_eq, if_neg hc]
  | closeAt k d =>
    refine Or.imp_right .inr (?_ : _ ∨ ∃ m, e = .missingNode m)
    simp only [expected, expectedCloseAt] at he
    simp only [Sys.step, Builder.closeAt]
    cases hk : s.handles[k]? with
    | none => rw [hk] at he; simp at he
    | some c =>
      rw [hk] at he
      simp only at he ⊢
      unfold Builder.closeAtCore
      cases hcell : s.cells[c]? with
      | none => exact .inl rfl
      | some cell =>
        rw [hcell] at he
        simp only at he ⊢
        split at he
        · rename_i hp; left; rw [if_pos hp]
        · rename_i hp
          rw [if_neg hp]
          split at he
          · right; simp at he; exact ⟨_, he.symm⟩
          · simp only [newNode] at he
            split at he
            · simp at he
            · rename_i hc; left; rw [ptrNew_eq, if_neg hc]
  | closeAtWith k d sp =>
    refine Or.imp_right .inr (?_ : _ ∨ ∃ m, e = .missingNode m)
    simp only [expected, expectedCloseAt] at he
    simp only [Sys.step, Builder.closeAtWith]
    cases hk : s.handles[k]? with
    | none => rw [hk] at he; simp at he
    | some c =>
      rw [hk] at he
      simp only at he ⊢
      unfold Builder.closeAtCore
      cases hcell : s.cells[c]? with
      | none => exact .inl rfl
      | some cell =>
        rw [hcell] at he
        simp only at he ⊢
        split at he
        · rename_i hp; left; rw [if_pos hp]
        · rename_i hp
          rw [if_neg hp]
          split at he
          · right; simp at he; exact ⟨_, he.symm⟩
          · simp only [newNode] at he
            split at he
            · simp at he
            · rename_i hc; left; rw [ptrNew_eq, if_neg hc]
  | setCursor i => simp [expected] at he

/-! ## A builder that only uses its own checkpoints -/

/-- Checkpoint cells never point beyond the next node. -/
def OwnCells (s : Sys α) : Prop :=
  ∀ (c : Nat) (cell : Cell), s.cells[c]? = some cell → cell.node ≤ s.b.tree.nodes.length

theorem Good.own_step {fl : Flavor} {s : Sys α} {st : List Nat} (h : Good fl s st)
    (ho : OwnCells s) (op : Op α) : OwnCells (s.step fl op).1 := by
  obtain ⟨_, st', he⟩ := h.step op
  intro c cell hc
  rw [he.len]
  rcases he.cell c cell hc with h1 | h1
  · have := ho c cell h1; omega
  · omega

/-- Reachable by some history of calls on one new builder. -/
structure Alone (fl : Flavor) (s : Sys α) (st : List Nat) : Prop where
  good : Good fl s st
  own : OwnCells s

theorem Alone.init (fl : Flavor) : Alone fl (Sys.init : Sys α) [] :=
  ⟨Good.init fl, by simp [OwnCells, Sys.init]⟩

theorem Alone.step {fl : Flavor} {s : Sys α} {st : List Nat} (h : Alone fl s st) (op : Op α) :
    ∃ st', Alone fl (s.step fl op).1 st' ∧
      st'.length = depthAfter st.length op (s.step fl op).2 := by
  obtain ⟨e, st', he⟩ := h.good.step op
  exact ⟨st', ⟨he.good, h.good.own_step h.own op⟩, by rw [e]; exact he.depth⟩

theorem Alone.run {fl : Flavor} {s : Sys α} {st : List Nat} (h : Alone fl s st)
    (ops : List (Op α)) : ∃ st', Alone fl (s.run fl ops).1 st' := by
  induction ops generalizing s st with
  | nil => exact ⟨st, h⟩
  | cons op ops ih =>
    obtain ⟨st', h', _⟩ := h.step op
    exact ih h'

theorem Alone.no_missing {fl : Flavor} {s : Sys α} {st : List Nat} (h : Alone fl s st)
    (op : Op α) (m : Nat) : (s.step fl op).2 ≠ .error (.missingNode m) := by
  rw [(h.good.step op).1]
  have hn : ∀ n m : Nat, newNode fl n ≠ .error (.missingNode m) := by
    intro n m; unfold newNode; split <;> simp
  have hclose : ∀ k, expectedCloseAt fl s k ≠ .error (.missingNode m) := by
    intro k
    unfold expectedCloseAt
    split
    · simp
    · split
      · simp
      · rename_i cell hcell
        have := h.own _ _ hcell
        rw [if_neg (by unfold Tree.len; omega : ¬ (_ ∧ s.b.tree.len < cell.node))]
        split
        · simp
        · exact hn _ _
  cases op with
  | close => simp only [expected]; split <;> simp
  | token d n =>
    simp only [expected]
    split
    · simp
    · exact hn _ _
  | checkpoint => simp only [expected]; split <;> simp
  | closeAt k d => exact hclose k
  | closeAtWith k d sp => exact hclose k
  | setCursor i => simp [expected]
  | «open» d => exact hn _ _
  | openWith d sp => exact hn _ _
  | tokenEmpty d => exact hn _ _
  | tokenWith d sp => exact hn _ _

/-- The number of nodes is the number of ids returned. -/
theorem Alone.len_run {fl : Flavor} (ops : List (Op α)) {s : Sys α} {st : List Nat}
    (h : Alone fl s st) : (s.run fl ops).1.b.tree.len = s.b.tree.len +
      ((s.run fl ops).2.filterMap idOf).length := by
  induction ops generalizing s st with
  | nil => rfl
  | cons op ops ih =>
    obtain ⟨st', h', _⟩ := h.step op
    obtain ⟨e, st2, he⟩ := h.good.step op
    simp only [Sys.run]
    rw [ih h']
    have hl := he.len
    have hm := h.no_missing op
    simp only [Tree.len]
    rw [hl, ← e]
    cases ho : (s.step fl op).2 with
    | ok v => cases v <;> simp [nodesAdded, idOf, List.filterMap_cons] <;> omega
    | error x =>
      cases x with
      | missingNode m => exact absurd ho (hm m)
      | _ => simp [nodesAdded, idOf, List.filterMap_cons]

end Syntree
