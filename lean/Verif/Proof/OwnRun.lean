import Verif.Proof.OwnWrap

/-! The invariant of `Own` for every call, history and world. -/

namespace Syntree

variable {α : Type}

theorem OpenChain.unique {nodes : List (Links α)} {st st' : List Nat} (h : OpenChain nodes st)
    (h' : OpenChain nodes st') (e : st.head? = st'.head?) : st = st' := by
  induction st generalizing st' with
  | nil => cases st' with
    | nil => rfl
    | cons q st' => simp at e
  | cons p st ih =>
    cases st' with
    | nil => simp at e
    | cons q st' =>
      simp at e; subst e
      obtain ⟨⟨l, h1, h2⟩, _, h3⟩ := h
      obtain ⟨⟨l', h1', h2'⟩, _, h3'⟩ := h'
      rw [h1] at h1'; simp at h1'; subst h1'
      rw [ih h3 h3' (h2.symm.trans h2')]

theorem WFB.unique {fl : Flavor} {b : Builder α} {st st' : List Nat} (h : WFB fl b st)
    (h' : WFB fl b st') : st = st' :=
  h.chain.unique h'.chain (h.top.symm.trans h'.top)

theorem OwnB.congr {b b' : Builder α} {st : List Nat} {own : Nat → Option Nat} {rank : Nat → Nat}
    (h : OwnB b st own rank) (hn : b'.tree.nodes = b.tree.nodes)
    (hf : b'.tree.first = b.tree.first) (hs : b'.sibling = b.sibling) (hp : b'.parent = b.parent) :
    OwnB b' st own rank := by
  refine ⟨hn ▸ h.tab, ?_, hn ▸ h.opn, hn ▸ h.desc, ?_, ?_⟩
  · rw [hs, hp, hn]; exact h.sib
  · rw [hf, hn]; exact h.root
  · rw [hf, hn]; exact h.full

theorem pushIndex_first (fl : Flavor) (t : Tree α) (i : TreeIndex) :
    (t.pushIndex fl i).first = t.first := by
  unfold Tree.pushIndex; split <;> rfl

/-- The invariant together with what is known of the open nodes. -/
def Opened (b : Builder α) (st : List Nat) : Prop :=
  b.parent = st.head? ∧ OpenChain b.tree.nodes st ∧ ∃ own rank, OwnB b st own rank

/-- After `insert`, the new node becomes the sibling. -/
theorem OwnB.insert_sib {fl : Flavor} {b : Builder α} {st : List Nat} {own : Nat → Option Nat}
    {rank : Nat → Nat} (hw : WFB fl b st) (h : OwnB b st own rank)
    (hc : b.tree.nodes.length < 2 ^ fl.width - 1) (d : α) (sp : Span) {b' : Builder α}
    (hn : b'.tree.nodes = (b.insert fl d sp).1.tree.nodes)
    (hf : b'.tree.first = (b.insert fl d sp).1.tree.first)
    (hs : b'.sibling = some b.tree.nodes.length) (hp : b'.parent = b.parent) :
    Opened b' st := by
  obtain ⟨h1, h2, h3⟩ := h.insert hw hc d sp
  obtain ⟨b2, e, _, _, _, _, _, _, _, e8, _⟩ := hw.insert hc d sp
  have hch : OpenChain b'.tree.nodes st := by rw [hn, e]; exact e8.chain
  refine ⟨hp.trans hw.top, hch, _, _, hn ▸ h1.tab, ?_, hn ▸ h1.opn, hn ▸ h1.desc, ?_, ?_⟩
  · intro s hs'
    rw [hs] at hs'; simp at hs'; subst hs'
    rw [hn, hp]; exact ⟨h2, h3⟩
  · rw [hf, hn]; exact h1.root
  · rw [hf, hn]; exact h1.full

theorem OwnB.modify_span {b : Builder α} {st : List Nat} {own : Nat → Option Nat} {rank : Nat → Nat}
    (h : OwnB b st own rank) (o : Option Nat) (f : Links α → Links α)
    (hf : ∀ l, (f l).parent = l.parent ∧ (f l).prev = l.prev ∧ (f l).next = l.next ∧
      (f l).first = l.first ∧ (f l).last = l.last) :
    OwnB { b with tree := b.tree.modifyOpt o f } st own rank := by
  cases o with
  | none => exact h
  | some i =>
    have hnx : ∀ (s : Nat), (∃ l, b.tree.nodes[s]? = some l ∧ l.next = none) →
        ∃ l, (b.tree.nodes.modify i f)[s]? = some l ∧ l.next = none := by
      rintro s ⟨l, h1, h2⟩
      by_cases hi : i = s
      · subst hi
        exact ⟨f l, by simp [List.getElem?_modify, h1], (hf l).2.2.1.trans h2⟩
      · exact ⟨l, by simp [List.getElem?_modify, h1, hi], h2⟩
    refine ⟨h.tab.modify i f hf, ?_, ?_, ?_, ?_, ?_⟩
    · intro s hs
      exact ⟨hnx s (h.sib s hs).1, (h.sib s hs).2⟩
    · intro o ho; exact hnx o (h.opn o ho)
    · intro o ho j h1 h2
      exact h.desc o ho j h1 (by simpa [Tree.modifyOpt, Tree.modifyNode] using h2)
    · intro g hg
      obtain ⟨h1, l, h2, h3⟩ := h.root g hg
      refine ⟨h1, ?_⟩
      simp only [Tree.modifyOpt, Tree.modifyNode]
      by_cases hi : i = g
      · subst hi
        exact ⟨f l, by simp [List.getElem?_modify, h2], (hf l).2.1.trans h3⟩
      · exact ⟨l, by simp [List.getElem?_modify, h2, hi], h3⟩
    · intro hx
      have := h.full hx
      simp [Tree.modifyOpt, Tree.modifyNode, this]

theorem Opened.modify_span {b : Builder α} {st : List Nat} (h : Opened b st) (o : Option Nat)
    (f : Links α → Links α)
    (hf : ∀ l, (f l).parent = l.parent ∧ (f l).prev = l.prev ∧ (f l).next = l.next ∧
      (f l).first = l.first ∧ (f l).last = l.last) :
    Opened { b with tree := b.tree.modifyOpt o f } st := by
  obtain ⟨h1, h2, own, rank, h3⟩ := h
  refine ⟨h1, ?_, own, rank, h3.modify_span o f hf⟩
  cases o with
  | none => exact h2
  | some i => exact h2.modify i f (fun l => (hf l).1)

theorem OwnB.opened {fl : Flavor} {b : Builder α} {st : List Nat} {own : Nat → Option Nat}
    {rank : Nat → Nat} (hw : WFB fl b st) (h : OwnB b st own rank) : Opened b st :=
  ⟨hw.top, hw.chain, _, _, h⟩

theorem OwnB.openWith {fl : Flavor} {b : Builder α} {st : List Nat} {own : Nat → Option Nat}
    {rank : Nat → Nat} (hw : WFB fl b st) (h : OwnB b st own rank) (d : α) (sp : Span) :
    ∃ st' own' rank', WFB fl (b.openWith fl d sp).1 st' ∧
      OwnB (b.openWith fl d sp).1 st' own' rank' := by
  unfold Builder.openWith
  by_cases hc : b.tree.nodes.length < 2 ^ fl.width - 1
  · obtain ⟨b', e, e1, e2, e3, e4, e5, e6, e7, e8, e9⟩ := hw.insert hc d sp
    obtain ⟨h1, h2, h3⟩ := h.insert hw hc d sp
    rw [e] at h1 h2 ⊢
    simp only at h1 h2 ⊢
    refine ⟨_, _, _, e9, h1.tab, ?_, ?_, ?_, h1.root, h1.full⟩
    · intro s hs; simp only at hs; rw [e3] at hs; simp at hs
    · intro o ho
      rcases List.mem_cons.1 ho with rfl | ho
      · exact h2
      · exact h1.opn o ho
    · intro o ho j hoj hj
      rcases List.mem_cons.1 ho with rfl | ho
      · simp only at hj; omega
      · exact h1.desc o ho j hoj hj
  · rw [insert_none hc]; exact ⟨_, _, _, hw, h⟩

theorem OwnB.token {fl : Flavor} {b : Builder α} {st : List Nat} {own : Nat → Option Nat}
    {rank : Nat → Nat} (hw : WFB fl b st) (h : OwnB b st own rank) (d : α) (len : Nat) :
    Opened (b.token fl d len).1 st := by
  have key : ∀ (b1 : Builder α) (sp : Span), b1.tree.nodes = b.tree.nodes →
      b1.tree.first = b.tree.first → b1.sibling = b.sibling → b1.parent = b.parent →
      Opened (match b1.insert fl d sp with
        | (b, .error e) => ((b, .error e) : Res α Nat)
        | (b, .ok id) =>
          let b := { b with sibling := some id }
          if fl.ik.lenIsEmpty len then (b, .ok id)
          else ({ b with tree := b.tree.pushIndex fl ⟨b.cursor, id⟩ }, .ok id)).1 st := by
    intro b1 sp h1 h2 h3 h4
    have hw1 : WFB fl b1 st := hw.same h1 h4 (by rw [h3]; exact hw.sib)
    have ho1 : OwnB b1 st own rank := h.congr h1 h2 h3 h4
    by_cases hc : b1.tree.nodes.length < 2 ^ fl.width - 1
    · obtain ⟨b', e, e1, e2, _⟩ := hw1.insert hc d sp
      have hins := fun (b2 : Builder α) => ho1.insert_sib (b' := b2) hw1 hc d sp
      rw [e] at hins ⊢
      simp only at hins ⊢
      split
      · exact hins _ rfl rfl rfl e2
      · exact hins _ (pushIndex_nodes _ _ _) (pushIndex_first _ _ _) rfl e2
    · rw [insert_none hc]; exact ho1.opened hw1
  unfold Builder.token
  cases he : fl.ik.lenIsEmpty len with
  | true =>
    simp only [if_true]
    have := key b (Span.new b.cursor b.cursor) rfl rfl rfl rfl
    rw [he] at this
    simp only [if_true] at this
    exact this
  | false =>
    simp only [Bool.false_eq_true, if_false]
    cases ha : fl.ik.checkedAddLen b.cursor len with
    | none => exact h.opened hw
    | some c =>
      simp only
      have := key { b with
          cursor := c, tree := { b.tree with span := { b.tree.span with stop := c } } }
        (Span.new b.cursor c) rfl rfl rfl rfl
      rw [he] at this
      simp only [Bool.false_eq_true, if_false] at this
      exact this

theorem OwnB.tokenWith {fl : Flavor} {b : Builder α} {st : List Nat} {own : Nat → Option Nat}
    {rank : Nat → Nat} (hw : WFB fl b st) (h : OwnB b st own rank) (d : α) (sp : Span) :
    Opened (b.tokenWith fl d sp).1 st := by
  unfold Builder.tokenWith
  by_cases hc : b.tree.nodes.length < 2 ^ fl.width - 1
  · obtain ⟨b', e, e1, e2, _⟩ := hw.insert hc d sp
    have hins := fun (b2 : Builder α) => h.insert_sib (b' := b2) hw hc d sp
    rw [e] at hins ⊢
    simp only at hins ⊢
    have h1 := hins { b' with
        sibling := some b.tree.nodes.length
        tree := b'.tree.pushIndex fl ⟨sp.start, b.tree.nodes.length⟩, cursor := sp.stop }
      (pushIndex_nodes _ _ _) (pushIndex_first _ _ _) rfl e2
    exact h1.modify_span b'.parent (fun p => { p with span := p.span.join sp })
      (fun l => ⟨rfl, rfl, rfl, rfl, rfl⟩)
  · rw [insert_none hc]; exact h.opened hw

theorem OwnB.close {fl : Flavor} {b : Builder α} {st : List Nat} {own : Nat → Option Nat}
    {rank : Nat → Nat} (hw : WFB fl b st) (h : OwnB b st own rank) :
    ∃ st' own' rank', b.close.1.parent = st'.head? ∧ OpenChain b.close.1.tree.nodes st' ∧
      OwnB b.close.1 st' own' rank' := by
  unfold Builder.close
  cases st with
  | nil =>
    have hp : b.parent = none := hw.top
    rw [hp]
    exact ⟨[], _, _, hp, trivial, h⟩
  | cons head st =>
    have hp : b.parent = some head := hw.top
    obtain ⟨⟨l, hl, hpar⟩, hlt, hch⟩ := hw.chain
    rw [hp]
    simp only [hl]
    have hhl := get_lt hl
    have base : ∀ (c : Nat), OwnB { b with parent := l.parent, sibling := some head, cursor := c }
        st own rank := by
      intro c
      refine ⟨h.tab, ?_, fun o ho => h.opn o (by simp [ho]),
        fun o ho => h.desc o (by simp [ho]), h.root, h.full⟩
      intro s hs
      simp at hs; subst hs
      refine ⟨h.opn head (by simp), ?_⟩
      intro q hq
      simp only at hq
      have hm : q ∈ st := List.mem_of_mem_head? (hpar ▸ hq)
      exact h.desc q (by simp [hm]) head (hlt q hm) hhl
    cases hx : l.parent with
    | none =>
      simp only
      have := base l.span.stop
      rw [hx] at this
      exact ⟨st, _, _, by rw [← hpar, hx], hch, this⟩
    | some id =>
      have hid := hw.nok.par _ _ id hl hx
      simp only [Tree.len, hid, if_true]
      have := (base l.span.stop).modify_span (some id)
        (fun p => { p with span := p.span.join l.span }) (fun l => ⟨rfl, rfl, rfl, rfl, rfl⟩)
      rw [hx] at this
      refine ⟨st, _, _, by rw [← hpar, hx], hch.modify id _ (fun _ => rfl), this⟩

theorem mkCheckpoint_b (fl : Flavor) (cells : Cells) (b : Builder α) :
    (b.mkCheckpoint fl cells).2.1.tree = b.tree ∧
    (b.mkCheckpoint fl cells).2.1.sibling = b.sibling ∧
    (b.mkCheckpoint fl cells).2.1.parent = b.parent := by
  unfold Builder.mkCheckpoint
  split
  · exact ⟨rfl, rfl, rfl⟩
  · simp only
    split
    · exact ⟨rfl, rfl, rfl⟩
    · split
      · split <;> exact ⟨rfl, rfl, rfl⟩
      · exact ⟨rfl, rfl, rfl⟩

theorem OwnB.closeAt' {fl : Flavor} {b : Builder α} {st : List Nat} {own : Nat → Option Nat}
    {rank : Nat → Nat} (hw : WFB fl b st) (h : OwnB b st own rank) {cells : Cells}
    (hcell : CellsOk cells) (c : Nat) (d : α) (explicit : Option Span) :
    Opened (b.closeAtCore fl cells c d explicit).2.1 st := by
  obtain ⟨own', rank', h1⟩ := h.closeAt hw hcell c d explicit
  have hw' : WFB fl (b.closeAtCore fl cells c d explicit).2.1 st := by
    cases hc : cells[c]? with
    | none => unfold Builder.closeAtCore; rw [hc]; exact hw
    | some cell =>
      by_cases hp : cell.parent = b.parent
      · by_cases hroom : b.tree.nodes.length < 2 ^ fl.width - 1
        · obtain ⟨_, b', e, _, _, h2, _⟩ := hw.closeAt hcell hc hp hroom d explicit
          rw [e]; exact h2
        · unfold Builder.closeAtCore
          rw [hc]
          simp only [hp, ne_eq, not_true_eq_false, if_false, Tree.len]
          rw [ptrNew_eq, if_neg hroom]; exact hw
      · unfold Builder.closeAtCore
        rw [hc]
        simp only [hp, ne_eq, not_false_eq_true, if_true]; exact hw
  exact h1.opened hw'

/-- One call. -/
theorem OwnB.step {fl : Flavor} {s : Sys α} {st : List Nat} {own : Nat → Option Nat}
    {rank : Nat → Nat} (hg : Good fl s st) (h : OwnB s.b st own rank) (op : Op α) :
    ∃ st' own' rank', Good fl (s.step fl op).1 st' ∧ OwnB (s.step fl op).1.b st' own' rank' := by
  obtain ⟨_, st1, he⟩ := hg.step op
  have hg1 := he.good
  have key : ∀ st', Opened (s.step fl op).1.b st' →
      ∃ st' own' rank', Good fl (s.step fl op).1 st' ∧
        OwnB (s.step fl op).1.b st' own' rank' := by
    intro st' ⟨h1, h2, own', rank', h3⟩
    have : st' = st1 := h2.unique hg1.wf.chain (h1.symm.trans hg1.wf.top)
    subst this
    exact ⟨_, _, _, hg1, h3⟩
  cases op with
  | «open» d =>
    obtain ⟨st', own', rank', h1, h2⟩ := h.openWith hg.wf d (Span.point s.b.cursor)
    exact key st' (h2.opened h1)
  | openWith d sp =>
    obtain ⟨st', own', rank', h1, h2⟩ := h.openWith hg.wf d sp
    exact key st' (h2.opened h1)
  | close =>
    obtain ⟨st', own', rank', h1, h2, h3⟩ := h.close hg.wf
    exact key st' ⟨h1, h2, _, _, h3⟩
  | token d n => exact key st (h.token hg.wf d n)
  | tokenEmpty d => exact key st (h.token hg.wf d 0)
  | tokenWith d sp => exact key st (h.tokenWith hg.wf d sp)
  | checkpoint =>
    refine key st ?_
    obtain ⟨h1, h2, h3⟩ := mkCheckpoint_b fl s.cells s.b
    have hb : (s.step fl .checkpoint).1.b = (s.b.mkCheckpoint fl s.cells).2.1 := by
      simp only [Sys.step]
      split <;> simp_all
    rw [hb]
    exact ⟨h3.trans hg.wf.top, h1 ▸ hg.wf.chain, own, rank,
      h.congr (by rw [h1]) (by rw [h1]) h2 h3⟩
  | closeAt k d =>
    refine key st ?_
    simp only [Sys.step]
    cases s.handles[k]? with
    | none => exact h.opened hg.wf
    | some c => exact h.closeAt' hg.wf hg.cells c d none
  | closeAtWith k d sp =>
    refine key st ?_
    simp only [Sys.step]
    cases s.handles[k]? with
    | none => exact h.opened hg.wf
    | some c => exact h.closeAt' hg.wf hg.cells c d (some sp)
  | setCursor i => exact key st ⟨hg.wf.top, hg.wf.chain, own, rank, h.congr rfl rfl rfl rfl⟩

/-! ## Worlds -/

/-- Every builder of a world satisfies the invariant. -/
structure OwnW (w : World α) (sts : List (List Nat)) : Prop where
  good : GoodW w sts
  own : ∀ (i : Nat) (fl : Flavor) (b : Builder α) (st : List Nat), w.builders[i]? = some (fl, b) →
    sts[i]? = some st → ∃ own rank, OwnB b st own rank

theorem OwnW.init : OwnW (World.init : World α) [] := ⟨GoodW.init, by simp⟩

theorem OwnW.snoc {w : World α} {sts : List (List Nat)} (h : OwnW w sts) {fl : Flavor}
    {b : Builder α} {st : List Nat} (hg : Good fl ⟨b, w.cells, w.handles⟩ st)
    (ho : ∃ own rank, OwnB b st own rank) :
    OwnW { w with builders := w.builders ++ [(fl, b)] } (sts ++ [st]) := by
  refine ⟨h.good.snoc hg, ?_⟩
  intro i fl' b' st' hb hs
  rcases Nat.lt_or_ge i w.builders.length with hlt | hge
  · rw [List.getElem?_append_left hlt] at hb
    rw [List.getElem?_append_left (by rw [h.good.len]; exact hlt)] at hs
    exact h.own i fl' b' st' hb hs
  · rw [List.getElem?_append_right hge] at hb
    rw [List.getElem?_append_right (by rw [h.good.len]; exact hge), h.good.len] at hs
    rcases Nat.eq_zero_or_pos (i - w.builders.length) with h0 | h0
    · rw [h0] at hb hs; simp at hb hs
      obtain ⟨rfl, rfl⟩ := hb; subst hs; exact ho
    · rw [List.getElem?_eq_none (by simp; omega)] at hb; simp at hb

theorem OwnW.step {w : World α} {sts : List (List Nat)} (h : OwnW w sts) (op : WOp α) :
    ∃ sts', OwnW (w.step op).1 sts' := by
  cases op with
  | new fl =>
    exact ⟨sts ++ [[]], h.snoc ⟨WFB.init fl, h.good.cells, h.good.handles, by simp [Builder.new]⟩
      ⟨_, _, OwnB.init⟩⟩
  | clone i =>
    simp only [World.step]
    cases hb : w.builders[i]? with
    | none => exact ⟨sts, h⟩
    | some p =>
      obtain ⟨fl, b⟩ := p
      obtain ⟨st, hst, hg⟩ := h.good.get hb
      exact ⟨sts ++ [st], h.snoc hg (h.own i fl b st hb hst)⟩
  | call i op =>
    simp only [World.step]
    cases hb : w.builders[i]? with
    | none => exact ⟨sts, h⟩
    | some p =>
      obtain ⟨fl, b⟩ := p
      obtain ⟨st, hst, hg⟩ := h.good.get hb
      obtain ⟨own, rank, ho⟩ := h.own i fl b st hb hst
      obtain ⟨st', own', rank', hg', ho'⟩ := OwnB.step hg ho op
      obtain ⟨_, st2, he⟩ := hg.step op
      have hi := (List.getElem?_eq_some_iff.1 hb).1
      have hi' := (List.getElem?_eq_some_iff.1 hst).1
      refine ⟨sts.set i st', ⟨⟨by simp [h.good.len], ?_, he.good.cells, he.good.handles⟩, ?_⟩⟩
      · intro j fl' b' st2 hb' hs'
        by_cases hij : i = j
        · subst hij
          simp only [List.getElem?_set_self hi, Option.some.injEq, Prod.mk.injEq] at hb'
          rw [List.getElem?_set_self hi'] at hs'
          obtain ⟨rfl, rfl⟩ := hb'
          simp at hs'; subst hs'
          exact hg'
        · simp only [List.getElem?_set_ne hij] at hb' hs'
          have := h.good.good j fl' b' st2 hb' hs'
          refine ⟨this.wf, he.good.cells, he.good.handles, ?_⟩
          intro c hc
          exact Nat.lt_of_lt_of_le (this.ckpt c hc) he.more
      · intro j fl' b' st2 hb' hs'
        by_cases hij : i = j
        · subst hij
          simp only [List.getElem?_set_self hi, Option.some.injEq, Prod.mk.injEq] at hb'
          rw [List.getElem?_set_self hi'] at hs'
          obtain ⟨rfl, rfl⟩ := hb'
          simp at hs'; subst hs'
          exact ⟨_, _, ho'⟩
        · simp only [List.getElem?_set_ne hij] at hb' hs'
          exact h.own j fl' b' st2 hb' hs'

theorem OwnW.run {w : World α} {sts : List (List Nat)} (h : OwnW w sts) (ops : List (WOp α)) :
    ∃ sts', OwnW (w.run ops).1 sts' := by
  induction ops generalizing w sts with
  | nil => exact ⟨sts, h⟩
  | cons op ops ih =>
    obtain ⟨sts1, h1⟩ := h.step op
    exact ih h1

/-- Every builder of every world. -/
theorem own_reachable (ops : List (WOp α)) {i : Nat} {fl : Flavor} {b : Builder α}
    (hb : ((World.init : World α).run ops).1.builders[i]? = some (fl, b)) :
    ∃ own rank, Own b.tree.nodes own rank ∧ RootOk b.tree.nodes own b.tree.first := by
  obtain ⟨sts, h⟩ := OwnW.init.run ops
  obtain ⟨st, hst, _⟩ := h.good.get hb
  obtain ⟨own, rank, ho⟩ := h.own i fl b st hb hst
  exact ⟨own, rank, ho.tab, ho.root⟩

end Syntree
