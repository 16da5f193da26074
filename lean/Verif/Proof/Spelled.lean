import Verif.Proof.Spans
import Verif.Proof.Late
import Verif.Spec.Spelled

/-! Cursor driven calls are shorthands. -/

namespace Syntree

variable {α : Type} {fl : Flavor}

open Forest

/-! ## Where the checkpoints start -/

theorem drop_append_le {F G : Forest (Lab α)} : ∀ {p : Nat}, p ≤ F.width →
    (F ++ G).drop p = F.drop p ++ G := by
  induction F with
  | nil => intro p h; simp at h; subst h; cases G <;> rfl
  | cons x k r _ ih =>
    intro p h
    cases p with
    | zero => rfl
    | succ p =>
      have : p ≤ r.width := by simp at h ⊢; omega
      exact ih this

theorem drop_split {F : Forest (Lab α)} {p q : Nat} (h : p ≤ q) (hp : p ≤ F.width) :
    p ≤ (F.take q).width ∧ F.drop p = (F.take q).drop p ++ F.drop q := by
  have h1 : p ≤ (F.take q).width := by
    simp only [width_eq, tops_take, List.length_take] at hp ⊢; omega
  refine ⟨h1, ?_⟩
  rw [← drop_append_le h1, take_append_drop]

/-- The levels above the current one: the node they belong to, the siblings before the open node,
and where the open node starts. -/
def stackLevels : Stack α → List (Option Nat × Forest (Lab α) × Nat)
  | [] => []
  | (x, left) :: st => (parOf st, left, x.span.start) :: stackLevels st

theorem stackLevels_endParent (c : Nat) (st : Stack α) :
    stackLevels (Nest.endParent c st) = stackLevels st := by
  cases st with
  | nil => rfl
  | cons p st => rfl

theorem stackLevels_growParent {st : Stack α} {s e : Nat} {sp : Span} (h : OkStack st s e)
    (hs : s ≤ sp.start) : stackLevels (Nest.growParent sp st) = stackLevels st := by
  cases st with
  | nil => rfl
  | cons p st =>
    obtain ⟨x, left⟩ := p
    simp only [Nest.growParent, stackLevels, List.cons.injEq, Prod.mk.injEq, true_and, and_true,
      Span.join, h.1]
    omega

/-- Every live checkpoint `k` was taken at `starts[k]`. -/
structure StartInv (starts : List Nat) (n : Nest α) : Prop where
  len : starts.length = n.marks.length
  at_ : ∀ (k : Nat) (m : Mark) (s : Nat), n.marks[k]? = some m → starts[k]? = some s → m.live = true →
    (∀ i, m.frame = some i → i < n.count) ∧
    (∀ L ∈ (n.frame, n.cur, n.cursor) :: stackLevels n.stack, L.1 = m.frame →
      m.pos ≤ L.2.1.width ∧ Tiled s (L.2.1.drop m.pos) L.2.2)

theorem StartInv.init : StartInv [] (Nest.init : Nest α) := ⟨rfl, by simp⟩

theorem StartInv.addLeaf {starts : List Nat} {n : Nest α} (h : StartInv starts n) {c : Nat}
    (hc : n.cursor ≤ c) (stop : Nat) (d : α) :
    StartInv starts (Nest.addLeaf { n with cursor := c, stop := stop } d ⟨n.cursor, c⟩) := by
  refine ⟨h.len, ?_⟩
  intro k m s hm hs hl
  obtain ⟨h1, h2⟩ := h.at_ k m s hm hs hl
  refine ⟨fun i hi => Nat.lt_succ_of_lt (h1 i hi), ?_⟩
  intro L hL hf
  simp only [Nest.addLeaf, stackLevels_endParent, List.mem_cons] at hL
  rcases hL with rfl | hL
  · have hf' : n.frame = m.frame := by
      rw [← hf]; exact (parOf_endParent _ _).symm
    obtain ⟨h3, h4⟩ := h2 _ (List.mem_cons_self) hf'
    simp only at h3 h4 ⊢
    refine ⟨?_, ?_⟩
    · simp only [width_eq, tops_append, List.length_append] at h3 ⊢; omega
    · rw [drop_append_le h3]
      exact h4.append (Tiled.leaf rfl hc)
  · exact h2 L (List.mem_cons_of_mem _ hL) hf

theorem StartInv.addPoint {starts : List Nat} {n : Nest α} (h : StartInv starts n) (d : α) :
    StartInv starts (n.addLeaf d (Span.point n.cursor)) :=
  h.addLeaf (Nat.le_refl _) n.stop d

/-- The span that a wrapped stretch gets. -/
theorem StartInv.span {starts : List Nat} {n : Nest α} (h : StartInv starts n) {k : Nat} {m : Mark}
    {s : Nat} (hm : n.marks[k]? = some m) (hs : starts[k]? = some s) (hl : m.live = true)
    (hf : m.frame = n.frame) (d : α) : n.wrap m.pos d none = n.wrap m.pos d (some ⟨s, n.cursor⟩) := by
  obtain ⟨_, h4⟩ := (h.at_ k m s hm hs hl).2 _ (List.mem_cons_self) hf.symm
  simp only at h4
  unfold Nest.wrap
  split
  · rename_i hn
    have : n.cur.drop m.pos = .nil := by
      cases hd : n.cur.drop m.pos with
      | nil => rfl
      | cons => rw [hd] at hn; simp at hn
    rw [this] at h4
    simp only [Tiled] at h4
    subst h4
    rfl
  · rename_i hn
    rw [h4.stretch (drop_ne_nil hn)]
    rfl

theorem StartInv.wrap {starts : List Nat} {n : Nest α} (h : StartInv starts n) {p : Nat}
    (d : α) : StartInv starts (n.wrap p d none) := by
  unfold Nest.wrap
  split
  · exact h.addPoint d
  · rename_i hn
    refine ⟨by simp [h.len], ?_⟩
    intro k m s hm hs hl
    rw [List.getElem?_map] at hm
    cases hm0 : n.marks[k]? with
    | none => rw [hm0] at hm; simp at hm
    | some m0 =>
      rw [hm0] at hm
      simp only [Option.map_some, Option.some.injEq] at hm
      split at hm
      · rw [← hm] at hl; simp at hl
      · rename_i hno
        subst hm
        obtain ⟨h1, h2⟩ := h.at_ k m0 s hm0 hs hl
        refine ⟨fun i hi => Nat.lt_succ_of_lt (h1 i hi), ?_⟩
        intro L hL hf
        rcases List.mem_cons.1 hL with rfl | hL
        · have hf' : n.frame = m0.frame := hf
          obtain ⟨h3, h4⟩ := h2 _ (List.mem_cons_self) hf'
          simp only at h3 h4 ⊢
          have hle : m0.pos ≤ p := by
            rcases Nat.lt_or_ge p m0.pos with h | h
            · exact absurd ⟨hf'.symm, h⟩ hno
            · exact h
          obtain ⟨h5, h6⟩ := drop_split hle h3
          refine ⟨?_, ?_⟩
          · simp only [width_eq, tops_append, List.length_append] at h5 ⊢; omega
          · rw [drop_append_le h5]
            rw [h6] at h4
            obtain ⟨b, h7, h8⟩ := h4.split
            exact h7.append (Tiled.single (h8.stretch (drop_ne_nil hn)) h8)
        · exact h2 L (List.mem_cons_of_mem _ hL) hf

theorem stackLevels_frame {st : Stack α} {L : Option Nat × Forest (Lab α) × Nat}
    (h : L ∈ stackLevels st) : L.1 = none ∨ ∃ i ∈ stackIds st.tail, L.1 = some i := by
  induction st with
  | nil => simp [stackLevels] at h
  | cons p st ih =>
    obtain ⟨x, left⟩ := p
    simp only [stackLevels, List.mem_cons] at h
    rcases h with rfl | h
    · cases hp : parOf st with
      | none => exact .inl rfl
      | some i => exact .inr ⟨i, parOf_mem hp, rfl⟩
    · rcases ih h with h1 | ⟨i, hi, h1⟩
      · exact .inl h1
      · refine .inr ⟨i, ?_, h1⟩
        cases st with
        | nil => simp [stackLevels] at h
        | cons q st =>
          simp only [List.tail_cons] at hi ⊢
          simp [stackIds, hi]

theorem stackLevels_other {n : Nest α} (h : (stackIds n.stack).Nodup)
    {L : Option Nat × Forest (Lab α) × Nat} (hL : L ∈ stackLevels n.stack) : L.1 ≠ n.frame := by
  intro e
  unfold Nest.frame at e
  cases hs : n.stack with
  | nil => rw [hs] at hL; simp [stackLevels] at hL
  | cons p st =>
    rw [hs] at e hL h
    rcases stackLevels_frame hL with h1 | ⟨i, hi, h1⟩
    · rw [h1] at e; simp at e
    · rw [h1] at e
      simp only [List.head?_cons, Option.map_some, Option.some.injEq] at e
      subst e
      simp only [stackIds, List.nodup_cons] at h
      apply h.1
      simp only [List.tail_cons] at hi
      simp [hi]

theorem drop_all (F : Forest (Lab α)) : F.drop F.width = .nil := by
  have := drop_width F .nil
  rwa [append_nil] at this

theorem StartInv.did {starts : List Nat} {n n' : Nest α} {op : Op α} {o : Except Err Out}
    (h : StartInv starts n) (hi : SpanInv n) (hnd : (stackIds n.stack).Nodup) (hfr : ∀ i, n.frame = some i → i < n.count)
    (hd : Did fl n op n' o) (hop : op.cursorDriven = true)
    (hsp : o ≠ .error .overflow) : StartInv (notedAt starts n.cursor o) n' := by
  cases hd with
  | fail _ _ => exact h
  | lost d len c he ha hf => exact absurd rfl hsp
  | noHandle _ => exact h
  | setCursor _ => simp [Op.cursorDriven] at hop
  | mark _ =>
    refine ⟨by simp [notedAt, h.len], ?_⟩
    intro k m s hm hs hl
    simp only [notedAt] at hm hs
    by_cases hk : k < n.marks.length
    · rw [List.getElem?_append_left hk] at hm
      rw [List.getElem?_append_left (by rw [h.len]; exact hk)] at hs
      exact h.at_ k m s hm hs hl
    · rw [List.getElem?_append_right (by omega)] at hm
      rw [List.getElem?_append_right (by rw [h.len]; omega), h.len] at hs
      have h0 : k - n.marks.length = 0 := by
        have := (List.getElem?_eq_some_iff.1 hm).1
        simpa using this
      rw [h0] at hm hs
      simp only [List.getElem?_cons_zero, Option.some.injEq] at hm hs
      subst hm hs
      refine ⟨hfr, ?_⟩
      intro L hL hf
      rcases List.mem_cons.1 hL with rfl | hL
      · refine ⟨Nat.le_refl _, ?_⟩
        simp only [drop_all]
        rfl
      · exact absurd hf (stackLevels_other hnd hL)
  | opened _ d sp hop' _ =>
    rcases hop' with ⟨_, rfl⟩ | rfl
    · refine ⟨h.len, ?_⟩
      intro k m s hm hs hl
      obtain ⟨h1, h2⟩ := h.at_ k m s hm hs hl
      refine ⟨fun i hi => Nat.lt_succ_of_lt (h1 i hi), ?_⟩
      intro L hL hf
      simp only [Nest.addOpen, stackLevels, stackLevels_endParent, List.mem_cons] at hL
      rcases hL with rfl | rfl | hL
      · have : m.frame = some n.count := hf.symm
        exact absurd (h1 _ this) (Nat.lt_irrefl _)
      · refine h2 (n.frame, n.cur, n.cursor) (List.mem_cons_self) ?_
        rw [← hf]; exact (parOf_endParent _ _).symm
      · exact h2 L (List.mem_cons_of_mem _ hL) hf
    · simp [Op.cursorDriven] at hop
  | emptyTok _ d _ _ => exact h.addPoint d
  | tok d len c he ha _ =>
    have := checkedAddLen_some he ha
    exact h.addLeaf (by omega) c d
  | tokWith d sp _ => simp [Op.cursorDriven] at hop
  | closed x left st hs =>
    refine ⟨h.len, ?_⟩
    obtain ⟨s0, h3, h4, h5⟩ := hi
    rw [hs] at h4
    obtain ⟨h6, s', h7, h8⟩ := h4
    intro k m s hm hs' hl
    obtain ⟨h1, h2⟩ := h.at_ k m s hm hs' hl
    refine ⟨h1, ?_⟩
    intro L hL hf
    rw [hs] at h2
    simp only [stackLevels_growParent h8 (show s' ≤ x.span.start by rw [h6]; exact h7.le),
      List.mem_cons] at hL
    rcases hL with rfl | hL
    · have hf' : parOf st = m.frame := by
        rw [← hf]; exact (parOf_growParent _ _).symm
      obtain ⟨h9, h10⟩ := h2 (parOf st, left, x.span.start)
        (List.mem_cons_of_mem _ (List.mem_cons_self)) hf'
      simp only at h9 h10 ⊢
      refine ⟨?_, ?_⟩
      · simp only [width_eq, tops_append, List.length_append] at h9 ⊢; omega
      · rw [drop_append_le h9]
        refine h10.append (Tiled.single rfl ?_)
        rw [h6]; exact h3
    · exact h2 L (List.mem_cons_of_mem _ (List.mem_cons_of_mem _ hL)) hf
  | wrapped _ k d explicit m hop' _ _ _ _ =>
    rcases hop' with ⟨rfl, rfl⟩ | ⟨sp, rfl, rfl⟩
    · exact h.wrap d
    · simp [Op.cursorDriven] at hop

/-! ## The builder does not look at the span of the tree, nor at the index -/

/-- The same tree with another span and another index. -/
def Tree.recast (t : Tree α) (sp : Span) (ix : List TreeIndex) : Tree α :=
  ⟨t.nodes, sp, ix, t.first, t.last⟩

/-- The same builder with another span and index of its tree. -/
def Builder.recast (b : Builder α) (sp : Span) (ix : List TreeIndex) : Builder α :=
  ⟨b.tree.recast sp ix, b.checkpoint, b.parent, b.sibling, b.cursor⟩

/-- The same system with another span and index of its tree. -/
def Sys.recast (s : Sys α) (sp : Span) (ix : List TreeIndex) : Sys α :=
  ⟨s.b.recast sp ix, s.cells, s.handles⟩

theorem Tree.recast_opt (t : Tree α) (o : Option Nat) (f : Links α → Links α) (sp : Span)
    (ix : List TreeIndex) : (t.recast sp ix).modifyOpt o f = (t.modifyOpt o f).recast sp ix := by
  cases o <;> rfl

theorem insert_recast (b : Builder α) (d : α) (s sp : Span) (ix : List TreeIndex) :
    (b.recast sp ix).insert fl d s = ((b.insert fl d s).1.recast sp ix, (b.insert fl d s).2) := by
  unfold Builder.insert
  show (match ptrNew fl.width b.tree.len with | none => _ | some new => _) = _
  cases ptrNew fl.width b.tree.len with
  | none => rfl
  | some new =>
    simp only
    have hp : (b.recast sp ix).parent = b.parent := rfl
    rw [hp]
    cases b.parent with
    | none => simp only [Builder.recast, Tree.recast, Tree.push, Tree.addRoot]; cases b.sibling <;> rfl
    | some q => simp only [Builder.recast, Tree.recast, Tree.push]; cases b.sibling <;> rfl

theorem insert_cursor (b : Builder α) (c : Nat) (d : α) (s : Span) :
    Builder.insert fl { b with cursor := c } d s =
      ({ (b.insert fl d s).1 with cursor := c }, (b.insert fl d s).2) := by
  unfold Builder.insert
  show (match ptrNew fl.width b.tree.len with | none => _ | some new => _) = _
  cases ptrNew fl.width b.tree.len <;> rfl

theorem openWith_recast (b : Builder α) (d : α) (s sp : Span) (ix : List TreeIndex) :
    (b.recast sp ix).openWith fl d s =
      ((b.openWith fl d s).1.recast sp ix, (b.openWith fl d s).2) := by
  unfold Builder.openWith
  rw [insert_recast]
  rcases b.insert fl d s with ⟨b', e | i⟩ <;> rfl

theorem close_recast (b : Builder α) (sp : Span) (ix : List TreeIndex) :
    (b.recast sp ix).close = (b.close.1.recast sp ix, b.close.2) := by
  unfold Builder.close
  have hp : (b.recast sp ix).parent = b.parent := rfl
  rw [hp]
  cases b.parent with
  | none => rfl
  | some q =>
    have hn : (b.recast sp ix).tree.nodes = b.tree.nodes := rfl
    have hl : (b.recast sp ix).tree.len = b.tree.len := rfl
    simp only [hn, hl]
    cases b.tree.nodes[q]? with
    | none => rfl
    | some l =>
      simp only
      cases l.parent with
      | none => rfl
      | some i =>
        by_cases h : i < b.tree.len
        · simp only [if_pos h]; rfl
        · simp only [if_neg h]; rfl

theorem mkCheckpoint_recast (b : Builder α) (cells : Cells) (sp : Span) (ix : List TreeIndex) :
    (b.recast sp ix).mkCheckpoint fl cells = ((b.mkCheckpoint fl cells).1,
      (b.mkCheckpoint fl cells).2.1.recast sp ix, (b.mkCheckpoint fl cells).2.2) := by
  unfold Builder.mkCheckpoint
  show (match ptrNew fl.width b.tree.len with | none => _ | some new => _) = _
  cases ptrNew fl.width b.tree.len with
  | none => rfl
  | some new =>
    simp only
    have hp : (b.recast sp ix).checkpoint = b.checkpoint := rfl
    rw [hp]
    cases b.checkpoint with
    | none => rfl
    | some c =>
      simp only
      cases cells[c]? with
      | none => rfl
      | some cell =>
        simp only [show (b.recast sp ix).parent = b.parent from rfl]
        split <;> rfl

theorem relink_recast (t : Tree α) (id newId : Nat) (p q : Option Nat) (l : Links α) (sp : Span)
    (ix : List TreeIndex) :
    (t.recast sp ix).relink id newId p q l = (t.relink id newId p q l).recast sp ix := by
  unfold Tree.relink
  cases p <;> cases q <;> rfl

theorem closeAtCore_recast (b : Builder α) (cells : Cells) (c : Nat) (d : α) (e : Option Span)
    (sp : Span) (ix : List TreeIndex) :
    (b.recast sp ix).closeAtCore fl cells c d e = ((b.closeAtCore fl cells c d e).1,
      (b.closeAtCore fl cells c d e).2.1.recast sp ix, (b.closeAtCore fl cells c d e).2.2) := by
  unfold Builder.closeAtCore
  cases cells[c]? with
  | none => rfl
  | some cell =>
    simp only
    have hp : (b.recast sp ix).parent = b.parent := rfl
    rw [hp]
    split
    · rfl
    · have hn : (b.recast sp ix).tree.nodes = b.tree.nodes := rfl
      simp only [hn, Tree.len]
      cases ptrNew fl.width b.tree.nodes.length with
      | none => rfl
      | some newId =>
        simp only
        cases b.tree.nodes[cell.node]? with
        | none =>
          simp only [insert_recast, show (b.recast sp ix).cursor = b.cursor from rfl]
          rcases b.insert fl d (e.getD (Span.point b.cursor)) with ⟨b', e' | i⟩
          · rfl
          · simp only; split <;> rfl
        | some l =>
          simp only
          rcases reparent newId cell.node l b.tree.nodes with ⟨nodes, e' | ⟨last, s⟩⟩
          · rfl
          · simp only
            have := relink_recast { b.tree with nodes := nodes } cell.node newId l.parent l.prev
              (⟨d, e.getD s, l.parent, l.prev, none, some cell.node, some last⟩ : Links α) sp ix
            simp only [Builder.recast, Prod.mk.injEq, true_and, and_true] at this ⊢
            rw [← this]
            rfl

/-- `close_at` is `close_at_with` for the right span. -/
theorem closeAtCore_explicit (b : Builder α) (cells : Cells) (c : Nat) (d : α) :
    ∃ sp, b.closeAtCore fl cells c d none = b.closeAtCore fl cells c d (some sp) := by
  unfold Builder.closeAtCore
  cases cells[c]? with
  | none => exact ⟨⟨0, 0⟩, rfl⟩
  | some cell =>
    simp only
    split
    · exact ⟨⟨0, 0⟩, rfl⟩
    · cases ptrNew fl.width b.tree.len with
      | none => exact ⟨⟨0, 0⟩, rfl⟩
      | some newId =>
        simp only
        cases b.tree.nodes[cell.node]? with
        | none => exact ⟨Span.point b.cursor, rfl⟩
        | some l =>
          simp only
          rcases reparent newId cell.node l b.tree.nodes with ⟨nodes, e' | ⟨last, s⟩⟩
          · exact ⟨⟨0, 0⟩, rfl⟩
          · exact ⟨s, rfl⟩

/-! ## The simulation -/

theorem modify_same {β : Type} {l : List β} {i : Nat} {f : β → β}
    (h : ∀ x, l[i]? = some x → f x = x) : l.modify i f = l := by
  apply List.ext_getElem?
  intro j
  rw [List.getElem?_modify]
  split
  · rename_i e
    subst e
    cases hx : l[i]? with
    | none => rfl
    | some x => rw [Option.map_eq_map, Option.map_some, h x hx]
  · simp

/-- Extending the span of the parent by a span that it covers already changes nothing. -/
theorem grow_same {T : Tree α} {n : Nest α} {c : Nat} {d : α} (hi : SpanInv n) (hc : n.cursor ≤ c)
    {st : Nat} (ht : TRep false T (Nest.addLeaf { n with cursor := c, stop := st } d ⟨n.cursor, c⟩).cur
      (Nest.addLeaf { n with cursor := c, stop := st } d ⟨n.cursor, c⟩).stack (n.count + 1)) :
    T.modifyOpt n.frame (fun p => { p with span := p.span.join ⟨n.cursor, c⟩ }) = T := by
  obtain ⟨s, h1, h2, h3⟩ := hi
  have hctx := ht.ctx
  unfold Nest.frame
  cases hs : n.stack with
  | nil => rfl
  | cons p rest =>
    obtain ⟨x, left⟩ := p
    simp only [Nest.addLeaf, hs, Nest.endParent] at hctx
    obtain ⟨⟨l, _, hx⟩, _⟩ := hctx
    rw [hs] at h2
    simp only [List.head?_cons, Option.map_some, Tree.modifyOpt, Tree.modifyNode]
    have : T.nodes.modify x.id (fun p => { p with span := p.span.join ⟨n.cursor, c⟩ }) = T.nodes := by
      apply modify_same
      intro y hy
      simp only at hx
      rw [hx] at hy
      obtain rfl := Option.some.inj hy
      simp only [mkLinks, Span.join, h2.1, Links.mk.injEq, Span.mk.injEq, true_and, and_true]
      have := h1.le
      omega
    rw [this]

theorem tokenWith_recast {s : Sys α} {n : Nest α} (hr : Rel false s n) (hi : SpanInv n)
    (hc : n.count < 2 ^ fl.width - 1) (d : α) {c : Nat} (hcur : n.cursor ≤ c) (sp0 : Span)
    (ix : List TreeIndex) :
    ∃ T ix', s.b.insert fl d ⟨n.cursor, c⟩ = ({ s.b with tree := T, sibling := none }, .ok n.count) ∧
      T.indexes = s.b.tree.indexes ∧
      (s.b.recast sp0 ix).tokenWith fl d ⟨n.cursor, c⟩ =
        (⟨T.recast sp0 ix', s.b.checkpoint, s.b.parent, some n.count, c⟩, .ok n.count) := by
  obtain ⟨T, e, hix, r⟩ := hr.insertLeaf fl hc d ⟨n.cursor, c⟩
  refine ⟨T, ((T.recast sp0 ix).pushIndex fl ⟨n.cursor, n.count⟩).indexes, e, hix, ?_⟩
  unfold Builder.tokenWith
  rw [insert_recast, e]
  simp only [Prod.mk.injEq, and_true, Builder.recast, Builder.mk.injEq, true_and]
  have hsame := grow_same (T := T) (c := c) (d := d) (st := n.stop) hi hcur
    (by exact r.tree)
  rw [hr.parent]
  have : ∀ (t : Tree α) o f, t.modifyOpt o f = t → ∀ sp ix, (t.recast sp ix).modifyOpt o f =
      t.recast sp ix := by
    intro t o f h sp ix; rw [Tree.recast_opt, h]
  have h2 : (T.recast sp0 ix).pushIndex fl ⟨n.cursor, n.count⟩ =
      T.recast sp0 ((T.recast sp0 ix).pushIndex fl ⟨n.cursor, n.count⟩).indexes := by
    unfold Tree.pushIndex; split <;> rfl
  rw [h2, this _ _ _ hsame]
  rfl

theorem wrap_mem (n : Nest α) (p : Nat) (d : α) (sp : Span) :
    (⟨n.count, d, sp⟩ : Lab α) ∈ (n.wrap p d (some sp)).cur.preorder := by
  unfold Nest.wrap
  split
  · simp [Nest.addLeaf, preorder_append]
  · simp [preorder_append]

/-- One call and its spelling. -/
theorem spelled_step {s : Sys α} {n n' : Nest α} {op : Op α} {o : Except Err Out} {starts : List Nat}
    (hr : Rel false s n) (hi : SpanInv n) (hst : StartInv starts n)
    (hs : n.step fl op = some (n', o)) (hop : op.cursorDriven = true) (ho : o ≠ .error .overflow)
    (sp0 : Span) (ix : List TreeIndex) :
    ∃ ix', (s.recast sp0 ix).step fl (op.spelled fl s.b.cursor starts) =
      ((s.step fl op).1.recast sp0 ix', o) := by
  obtain ⟨s1, e1, r1⟩ := hr.step (g' := false) fl op hs (by simp)
  have htok : ∀ (d : α) (len : Nat), n.token fl d len = (n', o) → s.lift .id (s.b.token fl d len) = (s1, o) →
      ∃ ix', (s.recast sp0 ix).lift .id ((s.recast sp0 ix).b.tokenWith fl d
        ⟨n.cursor, n.cursor + Op.len fl (.token d len)⟩) = (s1.recast sp0 ix', o) := by
    intro d len ht e
    have hnf : n.count < 2 ^ fl.width - 1 := by
      apply not_full_iff.1
      intro hf
      unfold Nest.token at ht
      rw [hf] at ht
      simp only [if_true] at ht
      split at ht
      · exact ho (Prod.mk.inj ht).2.symm
      · split at ht <;> exact ho (Prod.mk.inj ht).2.symm
    by_cases he : fl.ik.lenIsEmpty len = true
    · obtain ⟨T, ix', e2, hix, e3⟩ := tokenWith_recast (fl := fl) hr hi hnf d (Nat.le_refl n.cursor)
        sp0 ix
      refine ⟨ix', ?_⟩
      simp only [Op.len, he, if_true, Nat.add_zero]
      simp only [Builder.token, he, if_true, hr.cursor, Span.new, e2] at e
      simp only [Sys.recast, e3]
      simp only [Sys.lift, Except.map, Prod.mk.injEq] at e ⊢
      obtain ⟨rfl, rfl⟩ := e
      simp only [Builder.recast, hr.cursor, and_self]
    · cases ha : fl.ik.checkedAddLen n.cursor len with
      | none =>
        simp only [Nest.token, if_neg he, ha] at ht
        exact absurd (Prod.mk.inj ht).2.symm ho
      | some c =>
        have hc : c = n.cursor + len := checkedAddLen_some (by simpa using he) ha
        obtain ⟨T, ix', e2, hix, e3⟩ := tokenWith_recast (fl := fl) (c := c) hr hi hnf d
          (by omega) sp0 ix
        refine ⟨ix', ?_⟩
        simp only [Op.len, if_neg he, ← hc]
        have e2' := insert_recast (fl := fl) s.b d ⟨n.cursor, c⟩ ⟨s.b.tree.span.start, c⟩
          s.b.tree.indexes
        rw [e2] at e2'
        have e4 : (Builder.insert fl { s.b with cursor := c, tree :=
            { s.b.tree with span := { s.b.tree.span with stop := c } } } d ⟨n.cursor, c⟩) =
            (⟨T.recast ⟨s.b.tree.span.start, c⟩ s.b.tree.indexes, s.b.checkpoint, s.b.parent, none, c⟩,
              .ok n.count) := by
          have := insert_cursor (fl := fl) (s.b.recast ⟨s.b.tree.span.start, c⟩ s.b.tree.indexes) c d
            ⟨n.cursor, c⟩
          rw [e2'] at this
          exact this
        simp only [Builder.token, if_neg he, hr.cursor, ha, Span.new, e4] at e
        simp only [Sys.recast, e3]
        simp only [Sys.lift, Except.map, Prod.mk.injEq] at e ⊢
        obtain ⟨rfl, rfl⟩ := e
        simp only [Builder.recast, and_true, Sys.mk.injEq, Builder.mk.injEq]
        unfold Tree.pushIndex
        split <;> rfl
  cases op with
  | «open» d =>
    refine ⟨ix, ?_⟩
    simp only [Op.spelled, Sys.step, Builder.open, Sys.lift, Sys.recast, openWith_recast] at e1 ⊢
    rw [← (Prod.mk.inj e1).2]
    rfl
  | close =>
    refine ⟨ix, ?_⟩
    simp only [Op.spelled, Sys.step, Sys.lift, Sys.recast, close_recast] at e1 ⊢
    rw [← (Prod.mk.inj e1).2]
  | token d len =>
    simp only [Nest.step, Option.some.injEq] at hs
    obtain ⟨ix', h⟩ := htok d len hs e1
    refine ⟨ix', ?_⟩
    rw [e1]
    simp only [Op.spelled, Sys.step, hr.cursor]
    exact h
  | tokenEmpty d =>
    simp only [Nest.step, Option.some.injEq] at hs
    obtain ⟨ix', h⟩ := htok d 0 hs e1
    refine ⟨ix', ?_⟩
    rw [e1]
    have h0 : Op.len fl (.token d 0) = 0 := by simp [Op.len]
    rw [h0] at h
    simp only [Op.spelled, Sys.step, hr.cursor]
    exact h
  | checkpoint =>
    refine ⟨ix, ?_⟩
    simp only [Op.spelled, Sys.step, Sys.recast, mkCheckpoint_recast] at e1 ⊢
    revert e1
    rcases s.b.mkCheckpoint fl s.cells with ⟨cells, b, e | c⟩ <;> intro e1
    · simp only at e1 ⊢; rw [← (Prod.mk.inj e1).2]
    · simp only at e1 ⊢; rw [← (Prod.mk.inj e1).2]
  | closeAt k d =>
    refine ⟨ix, ?_⟩
    simp only [Op.spelled, Sys.step, Sys.recast] at e1 ⊢
    have hml := hr.marks.len
    cases hk : s.handles[k]? with
    | none =>
      rw [hk] at e1
      simp only at e1 ⊢
      rw [← (Prod.mk.inj e1).2]
    | some c =>
      rw [hk] at e1
      simp only at e1 ⊢
      have hlt : k < n.marks.length := hml ▸ (List.getElem?_eq_some_iff.1 hk).1
      obtain ⟨m, hm⟩ : ∃ m, n.marks[k]? = some m := ⟨_, List.getElem?_eq_getElem hlt⟩
      obtain ⟨st, hst'⟩ : ∃ st, starts[k]? = some st :=
        ⟨_, List.getElem?_eq_getElem (by rw [hst.len]; exact hlt)⟩
      have key : s.b.closeAtCore fl s.cells c d none =
          s.b.closeAtCore fl s.cells c d (some ⟨st, n.cursor⟩) := by
        simp only [Nest.step, Nest.closeAt, hm] at hs
        by_cases hfr : m.frame ≠ n.frame
        · obtain ⟨cell, c1, c2, _⟩ := hr.marks.cell k c m hk hm
          unfold Builder.closeAtCore
          rw [c1]
          simp only
          rw [if_pos (by rw [c2, hr.parent]; exact hfr), if_pos (by rw [c2, hr.parent]; exact hfr)]
        · rw [if_neg hfr] at hs
          have hfr' := Decidable.not_not.1 hfr
          by_cases hf : n.full fl = true
          · rw [if_pos hf] at hs
            simp only [Option.some.injEq, Prod.mk.injEq] at hs
            exact absurd hs.2.symm ho
          · rw [if_neg hf] at hs
            cases hl : m.live with
            | false => rw [hl] at hs; simp at hs
            | true =>
              rw [hl] at hs
              simp only [Bool.not_true, Bool.false_eq_true, if_false, Option.some.injEq,
                Prod.mk.injEq] at hs
              obtain ⟨rfl, rfl⟩ := hs
              rw [hst.span hm hst' hl hfr' d] at r1
              obtain ⟨S, hS⟩ := closeAtCore_explicit (fl := fl) s.b s.cells c d
              have hstep : n.step fl (.closeAtWith k d S) =
                  some (n.wrap m.pos d (some S), .ok (.id n.count)) := by
                simp only [Nest.step, Nest.closeAt, hm, if_neg hfr, if_neg hf, hl, Bool.not_true,
                  Bool.false_eq_true, if_false]
              obtain ⟨s2, e2, r2⟩ := hr.step (g' := false) fl _ hstep (by simp)
              simp only [Sys.step, hk, Builder.closeAtWith, ← hS] at e2
              simp only [Builder.closeAt] at e1
              rw [e1] at e2
              obtain ⟨rfl, _⟩ := Prod.mk.inj e2
              obtain ⟨l1, a1, _, b1⟩ := r1.tree.seg.lookup (wrap_mem n m.pos d ⟨st, n.cursor⟩)
              obtain ⟨l2, a2, _, b2⟩ := r2.tree.seg.lookup (wrap_mem n m.pos d S)
              simp only at a1 a2 b1 b2
              rw [a1] at a2
              rw [hS, ← b2, ← Option.some.inj a2, b1]
      simp only [Builder.closeAt, Builder.closeAtWith, hst', Option.getD_some, hr.cursor,
        closeAtCore_recast] at e1 ⊢
      rw [← key, ← (Prod.mk.inj e1).2]
  | openWith d sp => simp [Op.cursorDriven] at hop
  | tokenWith d sp => simp [Op.cursorDriven] at hop
  | closeAtWith k d sp => simp [Op.cursorDriven] at hop
  | setCursor i => simp [Op.cursorDriven] at hop

/-- A whole history and its spelling. -/
theorem spelled_run : ∀ (ops : List (Op α)) {s : Sys α} {n n2 : Nest α} {starts : List Nat}
    {os : List (Except Err Out)} (_ : Rel false s n) (_ : SpanInv n) (_ : StartInv starts n)
    (_ : n.run fl ops = some (n2, os)) (_ : ∀ op ∈ ops, op.cursorDriven = true)
    (_ : ∀ o ∈ os, o ≠ .error .overflow) (sp0 : Span) (ix : List TreeIndex),
    ∃ ix', (s.recast sp0 ix).run fl (spelled fl s starts ops) =
      ((s.run fl ops).1.recast sp0 ix', os) := by
  intro ops
  induction ops with
  | nil =>
    intro s n n2 starts os hr hi hst h hc ho sp0 ix
    simp only [Nest.run, Option.some.injEq, Prod.mk.injEq] at h
    exact ⟨ix, by rw [← h.2]; rfl⟩
  | cons op ops ih =>
    intro s n n2 starts os hr hi hst h hc ho sp0 ix
    simp only [Nest.run] at h
    cases h1 : n.step fl op with
    | none => rw [h1] at h; simp at h
    | some r =>
      obtain ⟨n1, o1⟩ := r
      rw [h1] at h
      simp only at h
      cases h2 : n1.run fl ops with
      | none => rw [h2] at h; simp at h
      | some r2 =>
        obtain ⟨n3, os2⟩ := r2
        rw [h2] at h
        simp only [Option.some.injEq, Prod.mk.injEq] at h
        obtain ⟨rfl, rfl⟩ := h
        have hop := hc op (by simp)
        have ho1 := ho o1 (by simp)
        obtain ⟨ix1, e1⟩ := spelled_step (fl := fl) hr hi hst h1 hop ho1 sp0 ix
        obtain ⟨s1, e2, r1⟩ := hr.step (g' := false) fl op h1 (by simp)
        have hd := Nest.step_did h1
        have hst1 := hst.did hi (List.nodup_append.1 hr.tree.nodup).2.1 (fun i => hr.frame_lt) hd hop ho1
        obtain ⟨ix2, e3⟩ := ih r1 (hi.did hd hop (.inr ho1)) hst1 h2
          (fun op h => hc op (by simp [h])) (fun o h => ho o (by simp [h])) sp0 ix1
        refine ⟨ix2, ?_⟩
        rw [e2] at e1
        simp only [spelled, Sys.run, e2, hr.cursor] at e1 ⊢
        rw [e1]
        simp only [e3]

end Syntree
