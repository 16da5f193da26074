import Verif.Model.Storeless
import Verif.Model.Print
import Verif.Spec.Storeless
import Verif.Spec.Macro
import Verif.Proof.Pointer

/-! Building with storage that keeps nothing. -/

namespace Syntree

variable {α : Type} {fl : Flavor}

/-! ## With `Vec` it is the model of `Model/Builder.lean` -/

theorem insertK_true (b : Builder α) (d : α) (sp : Span) :
    b.insertK true fl d sp = b.insert fl d sp := rfl

theorem openWithK_true (b : Builder α) (d : α) (sp : Span) :
    b.openWithK true fl d sp = b.openWith fl d sp := rfl

theorem tokenK_true (b : Builder α) (d : α) (n : Nat) : b.tokenK true fl d n = b.token fl d n := rfl

theorem tokenWithK_true (b : Builder α) (d : α) (sp : Span) :
    b.tokenWithK true fl d sp = b.tokenWith fl d sp := rfl

theorem closeAtCoreK_true (cells : Cells) (b : Builder α) (c : Nat) (d : α) (e : Option Span) :
    b.closeAtCoreK true fl cells c d e = b.closeAtCore fl cells c d e := rfl

theorem stepK_true (s : Sys α) (op : Op α) : s.stepK true fl op = s.step fl op := by
  cases op <;> rfl

theorem runK_true (ops : List (Op α)) : ∀ s : Sys α, s.runK true fl ops = s.run fl ops := by
  induction ops with
  | nil => intro s; rfl
  | cons op ops ih => intro s; simp only [Sys.runK, Sys.run, stepK_true, ih]

theorem tryRunK_true (ops : List (Op α)) : ∀ s : Sys α, s.tryRunK true fl ops = s.tryRun fl ops := by
  induction ops with
  | nil => intro s; rfl
  | cons op ops ih =>
    intro s
    simp only [Sys.tryRunK, Sys.tryRun, stepK_true]
    rcases s.step fl op with ⟨s', _ | _⟩
    · rfl
    · exact ih s'

/-! ## With `EmptyVec` -/

/-- What is left of a builder. -/
structure HuskRep (s : Sys α) (h : Husk) : Prop where
  nodes : s.b.tree.nodes = []
  span : s.b.tree.span = ⟨0, h.stop⟩
  parent : s.b.parent = if h.isOpen then some 0 else none
  cursor : s.b.cursor = h.cursor
  count : s.handles.length = h.marks.length
  cells : ∀ (k : Nat) (m : Bool), h.marks[k]? = some m →
    ∃ c, s.handles[k]? = some c ∧ s.cells[c]? = some (⟨0, if m = true then some 0 else none⟩ : Cell)

theorem HuskRep.init : HuskRep (Sys.init : Sys α) Husk.new :=
  ⟨rfl, rfl, rfl, rfl, rfl, by simp [Husk.new]⟩

theorem ptr_zero (hw : 0 < fl.width) : ptrNew fl.width 0 = some 0 := by
  rw [ptrNew_eq, if_pos]
  have : 2 ^ 1 ≤ 2 ^ fl.width := Nat.pow_le_pow_right (by decide) hw
  omega

theorem HuskRep.len {s : Sys α} {h : Husk} (hr : HuskRep s h) : s.b.tree.len = 0 := by
  simp [Tree.len, hr.nodes]

theorem modifyOpt_nil {t : Tree α} (h : t.nodes = []) (o : Option Nat) (f : Links α → Links α) :
    t.modifyOpt o f = t := by
  cases o with
  | none => rfl
  | some i =>
    cases t
    simp only at h
    subst h
    simp [Tree.modifyOpt, Tree.modifyNode]

/-- `insert` on such a builder: the tree keeps no node. -/
theorem insertK_false (hw : 0 < fl.width) {b : Builder α} (hn : b.tree.nodes = []) (d : α)
    (sp : Span) : ∃ t, b.insertK false fl d sp = ({ b with tree := t, sibling := none }, .ok 0) ∧
      t.nodes = [] ∧ t.span = b.tree.span := by
  have hl : b.tree.len = 0 := by simp [Tree.len, hn]
  simp only [Builder.insertK, hl, ptr_zero hw, Tree.pushK, Bool.false_eq_true, if_false]
  cases b.parent with
  | none =>
    have h1 : (b.tree.addRoot 0).nodes = [] := hn
    exact ⟨_, rfl, by rw [modifyOpt_nil h1]; exact hn, by rw [modifyOpt_nil h1]; rfl⟩
  | some i =>
    have h1 : (b.tree.modifyNode i (Links.addChild 0 sp)).nodes = [] := by
      simp [Tree.modifyNode, hn]
    exact ⟨_, rfl, by rw [modifyOpt_nil h1]; exact h1, by rw [modifyOpt_nil h1]; rfl⟩

theorem pushIndex_nodes' (fl : Flavor) (t : Tree α) (i : TreeIndex) :
    (t.pushIndex fl i).nodes = t.nodes ∧ (t.pushIndex fl i).span = t.span := by
  unfold Tree.pushIndex; split <;> exact ⟨rfl, rfl⟩

theorem closeAtCoreK_false (hw : 0 < fl.width) {s : Sys α} {h : Husk} (hr : HuskRep s h) {k c : Nat}
    {m : Bool} (hm : h.marks[k]? = some m) (hc : s.handles[k]? = some c) (d : α)
    (e : Option Span) :
    ∃ b', s.b.closeAtCoreK false fl s.cells c d e =
        (s.cells, b', if m = h.isOpen then .ok 0 else .error .closeAtError) ∧
      HuskRep { s with b := b' } h := by
  obtain ⟨c', h1, h2⟩ := hr.cells k m hm
  rw [hc, Option.some.injEq] at h1
  subst h1
  have hp : (if m = true then some 0 else none : Option Nat) = s.b.parent ↔ m = h.isOpen := by
    rw [hr.parent]; cases m <;> cases h.isOpen <;> simp
  by_cases he : m = h.isOpen
  · obtain ⟨t, i1, i2, i3⟩ := insertK_false (fl := fl) hw hr.nodes d
      (e.getD (Span.point s.b.cursor))
    refine ⟨{ s.b with tree := t, sibling := some 0 }, ?_, ?_⟩
    · simp only [Builder.closeAtCoreK, h2, hp.2 he, ne_eq, not_true_eq_false, if_false, hr.len,
        ptr_zero hw, hr.nodes, List.getElem?_nil, i1, if_pos he]
    · exact ⟨i2, i3.trans hr.span, hr.parent, hr.cursor, hr.count, hr.cells⟩
  · refine ⟨s.b, ?_, hr⟩
    have : ¬ ((if m = true then some 0 else none : Option Nat) = s.b.parent) := fun hh => he (hp.1 hh)
    simp only [Builder.closeAtCoreK, h2, ne_eq, this, not_false_eq_true, if_true, if_neg he]

theorem HuskRep.step (hw : 0 < fl.width) {s : Sys α} {h : Husk} (hr : HuskRep s h) (op : Op α) :
    HuskRep (s.stepK false fl op).1 (h.step fl.ik op).1 ∧
      (s.stepK false fl op).2 = (h.step fl.ik op).2 := by
  have tok : ∀ (d : α) (n : Nat),
      HuskRep (s.lift .id (s.b.tokenK false fl d n)).1 (h.step fl.ik (.token d n)).1 ∧
      (s.lift .id (s.b.tokenK false fl d n)).2 = (h.step fl.ik (.token d n)).2 := by
    intro d n
    by_cases hn : fl.ik.lenIsEmpty n = true
    · obtain ⟨t, i1, i2, i3⟩ := insertK_false (fl := fl) hw hr.nodes d
        (Span.new s.b.cursor s.b.cursor)
      simp only [Sys.lift, Builder.tokenK, hn, if_true, i1, Husk.step]
      exact ⟨⟨i2, i3.trans hr.span, hr.parent, hr.cursor, hr.count, hr.cells⟩, rfl⟩
    · have hc := hr.cursor
      simp only [Sys.lift, Builder.tokenK, hn, if_false, Husk.step, hc, Bool.false_eq_true]
      cases hcc : fl.ik.checkedAddLen h.cursor n with
      | none => exact ⟨hr, rfl⟩
      | some c =>
        obtain ⟨t, i1, i2, i3⟩ := insertK_false (fl := fl) hw (b := { s.b with
          cursor := c, tree := { s.b.tree with span := { s.b.tree.span with stop := c } } })
          hr.nodes d (Span.new h.cursor c)
        dsimp only
        rw [i1]
        refine ⟨⟨?_, ?_, hr.parent, rfl, hr.count, hr.cells⟩, rfl⟩
        · exact (pushIndex_nodes' _ _ _).1.trans i2
        · refine (pushIndex_nodes' _ _ _).2.trans (i3.trans ?_)
          show Span.mk s.b.tree.span.start c = _
          rw [hr.span]
  have opn : ∀ (d : α) (sp : Span),
      HuskRep (s.lift .id (s.b.openWithK false fl d sp)).1 { h with isOpen := true } ∧
      (s.lift .id (s.b.openWithK false fl d sp)).2 = .ok (.id 0) := by
    intro d sp
    obtain ⟨t, i1, i2, i3⟩ := insertK_false (fl := fl) hw hr.nodes d sp
    simp only [Sys.lift, Builder.openWithK, i1]
    exact ⟨⟨i2, i3.trans hr.span, rfl, hr.cursor, hr.count, hr.cells⟩, rfl⟩
  have cls : ∀ (k : Nat) (d : α) (e : Option Span),
      (match s.handles[k]? with
        | none => (s, Except.ok Out.unit)
        | some c =>
          let r := s.b.closeAtCoreK false fl s.cells c d e
          (({ s with b := r.2.1, cells := r.1 } : Sys α), r.2.2.map Out.id)).2 =
        (h.step fl.ik (.closeAt k d)).2 ∧
      HuskRep (match s.handles[k]? with
        | none => (s, Except.ok Out.unit)
        | some c =>
          let r := s.b.closeAtCoreK false fl s.cells c d e
          (({ s with b := r.2.1, cells := r.1 } : Sys α), r.2.2.map Out.id)).1
        (h.step fl.ik (.closeAt k d)).1 := by
    intro k d e
    simp only [Husk.step]
    cases hm : h.marks[k]? with
    | none =>
      have : s.handles[k]? = none := by
        rw [List.getElem?_eq_none_iff] at hm ⊢
        have := hr.count; omega
      simp only [this]
      exact ⟨trivial, hr⟩
    | some m =>
      obtain ⟨c, h1, _⟩ := hr.cells k m hm
      obtain ⟨b', h2, h3⟩ := closeAtCoreK_false (fl := fl) hw hr hm h1 d e
      simp only [h1, h2]
      by_cases he : m = h.isOpen
      · simp only [if_pos he]; exact ⟨rfl, h3⟩
      · simp only [if_neg he]; exact ⟨rfl, h3⟩
  cases op with
  | «open» d => exact opn d _
  | openWith d sp => exact opn d sp
  | close =>
    simp only [Sys.stepK, Sys.lift, Builder.close, Husk.step, hr.parent]
    cases ho : h.isOpen with
    | false => exact ⟨hr, rfl⟩
    | true =>
      simp only [if_true, hr.nodes, List.getElem?_nil]
      exact ⟨⟨hr.nodes, hr.span, rfl, hr.cursor, hr.count, hr.cells⟩, rfl⟩
  | token d n => exact tok d n
  | tokenEmpty d =>
    have := tok d 0
    have he : fl.ik.lenIsEmpty 0 = true := by cases fl.ik <;> rfl
    simp only [Husk.step, he, if_true] at this
    exact this
  | tokenWith d sp =>
    obtain ⟨t, i1, i2, i3⟩ := insertK_false (fl := fl) hw hr.nodes d sp
    simp only [Sys.stepK, Sys.lift, Builder.tokenWithK, i1, Husk.step]
    have hn : (t.pushIndex fl ⟨sp.start, 0⟩).nodes = [] := (pushIndex_nodes' _ _ _).1.trans i2
    refine ⟨⟨?_, ?_, hr.parent, rfl, hr.count, hr.cells⟩, rfl⟩
    · simp only [modifyOpt_nil hn]; exact hn
    · simp only [modifyOpt_nil hn]
      exact (pushIndex_nodes' _ _ _).2.trans (i3.trans hr.span)
  | checkpoint =>
    have grow : ∀ (cells : Cells) (c : Nat), (∀ (j : Nat) (x : Cell), s.cells[j]? = some x → cells[j]? = some x) →
        cells[c]? = some ⟨0, s.b.parent⟩ → ∀ ck,
        HuskRep ⟨{ s.b with checkpoint := ck }, cells, s.handles ++ [c]⟩
          { h with marks := h.marks ++ [h.isOpen] } := by
      intro cells c hmono hc ck
      refine ⟨hr.nodes, hr.span, hr.parent, hr.cursor, by simp [hr.count], ?_⟩
      intro k m hk
      rw [List.getElem?_append] at hk
      split at hk
      · rename_i hlt
        obtain ⟨c', h1, h2⟩ := hr.cells k m hk
        refine ⟨c', ?_, hmono _ _ h2⟩
        rw [List.getElem?_append, if_pos (by have := hr.count; omega)]
        exact h1
      · rename_i hge
        have hk0 : k - h.marks.length = 0 := by
          rcases Nat.eq_zero_or_pos (k - h.marks.length) with h0 | h0
          · exact h0
          · rw [List.getElem?_eq_none (by simp; omega)] at hk; simp at hk
        rw [hk0] at hk
        simp only [List.getElem?_cons_zero, Option.some.injEq] at hk
        subst hk
        refine ⟨c, ?_, by rw [← hr.parent]; exact hc⟩
        rw [List.getElem?_append, if_neg (by have := hr.count; omega), hr.count, hk0]
        rfl
    simp only [Sys.stepK, Builder.mkCheckpoint, hr.len, ptr_zero hw, Husk.step]
    have fresh := grow (s.cells ++ [⟨0, s.b.parent⟩]) s.cells.length
      (fun j x hj => by rw [List.getElem?_append_left]; exact hj; exact (List.getElem?_eq_some_iff.1 hj).1)
      (by simp) (some s.cells.length)
    cases hck : s.b.checkpoint with
    | none => exact ⟨fresh, by rw [hr.count]⟩
    | some c =>
      cases hcell : s.cells[c]? with
      | none => simp only [hcell]; exact ⟨fresh, by rw [hr.count]⟩
      | some cell =>
        simp only [hcell]
        by_cases hcond : cell.node = 0 ∧ cell.parent = s.b.parent
        · simp only [if_pos hcond]
          refine ⟨?_, by rw [hr.count]⟩
          have := grow s.cells c (fun _ _ hx => hx) (by
            rw [hcell]; cases cell; simp only at hcond; rw [hcond.1, hcond.2]) s.b.checkpoint
          exact this
        · simp only [if_neg hcond]
          exact ⟨fresh, by rw [hr.count]⟩
  | closeAt k d => exact (cls k d none).symm
  | closeAtWith k d sp => exact (cls k d (some sp)).symm
  | setCursor i => exact ⟨⟨hr.nodes, hr.span, hr.parent, rfl, hr.count, hr.cells⟩, rfl⟩

theorem HuskRep.run (hw : 0 < fl.width) (ops : List (Op α)) : ∀ {s : Sys α} {h : Husk}, HuskRep s h →
    HuskRep (s.runK false fl ops).1 (h.run fl.ik ops).1 ∧
      (s.runK false fl ops).2 = (h.run fl.ik ops).2 := by
  induction ops with
  | nil => intro s h hr; exact ⟨hr, rfl⟩
  | cons op ops ih =>
    intro s h hr
    obtain ⟨h1, h2⟩ := hr.step hw op
    obtain ⟨h3, h4⟩ := ih h1
    exact ⟨h3, by simp only [Sys.runK, Husk.run, h2, h4]⟩

theorem HuskRep.tryRun (hw : 0 < fl.width) (ops : List (Op α)) : ∀ {s : Sys α} {h : Husk},
    HuskRep s h → (∀ s', s.tryRunK false fl ops = .ok s' → HuskRep s' (h.run fl.ik ops).1) := by
  induction ops with
  | nil =>
    intro s h hr s' e
    simp only [Sys.tryRunK, Except.ok.injEq] at e
    subst e
    exact hr
  | cons op ops ih =>
    intro s h hr s' e
    obtain ⟨h1, h2⟩ := hr.step hw op
    simp only [Sys.tryRunK] at e
    rcases hst : s.stepK false fl op with ⟨s2, _ | _⟩
    · rw [hst] at e; simp at e
    · rw [hst] at e h1
      exact ih h1 s' e

end Syntree

namespace Syntree

variable {α : Type} {fl : Flavor}

/-! ## Reading a tree without nodes -/

theorem walkEvents_nil (w : WalkEvents) :
    WalkEvents.next ([] : List (Links α)) w = ({ w with node := none }, .none) := by
  obtain ⟨_ | ⟨n, e⟩, d⟩ := w <;> rfl

theorem yields_walkEvents_nil (w : WalkEvents) :
    Yields (WalkEvents.next ([] : List (Links α))) w [] := .done (walkEvents_nil w)

theorem withDepths_nil (w : WalkEvents) :
    WithDepths.next ([] : List (Links α)) w = ({ w with node := none }, .none) := by
  simp only [WithDepths.next, List.length_nil, Nat.zero_add]
  rw [WithDepths.nextLoop.eq_2, walkEvents_nil]

theorem walk_nil (w : WalkEvents) :
    Walk.next ([] : List (Links α)) w = ({ w with node := none }, .none) := by
  simp only [Walk.next, List.length_nil, Nat.zero_add]
  rw [Walk.nextLoop.eq_2, walkEvents_nil]

theorem children_nil (c : Children) :
    Yields (Children.next ([] : List (Links α))) c [] ∧
    Yields (Children.nextBack ([] : List (Links α))) c [] := by
  obtain ⟨f, l⟩ := c
  constructor
  · cases f <;> exact .done rfl
  · cases l <;> exact .done rfl

theorem eq_nil [DecidableEq α] {t t' : Tree α} (h : t.nodes = []) (h' : t'.nodes = []) :
    t.eq t' = some true := by
  simp only [Tree.eq, h, h', List.length_nil, Nat.zero_add]
  simp only [iterEq, withDepths_nil]

theorem print_nil (showIndex : Nat → String) (debugData : α → String)
    (debugStr : String → String) (source : Span → Option String) {t : Tree α} (h : t.nodes = []) :
    t.printWithLookup showIndex debugData debugStr source = some [] := by
  simp only [Tree.printWithLookup, h, List.length_nil, Nat.zero_add]
  simp only [forLoop, withDepths_nil]

theorem get_nil {t : Tree α} (h : t.nodes = []) (i : Nat) : t.get i = none := by
  simp [Tree.get, nodeAt, h]

theorem query_nil {t : Tree α} (h : t.nodes = []) (search : List TreeIndex → Nat → Search)
    (a b : Nat) : t.nodeWithSpanInternal search a b = .none := by
  unfold Tree.nodeWithSpanInternal
  split
  · rfl
  · rw [get_nil h]

theorem modify_nil {t : Tree α} (h : t.nodes = []) (c : ChangeSet) :
    c.modify fl t = .ok Tree.empty := by
  have hf : t.firstNode = none := by
    unfold Tree.firstNode
    cases t.first with
    | none => rfl
    | some i => exact get_nil h i
  simp only [ChangeSet.modify, hf, Option.map_none, ModState.loop]
  rfl

/-! ## Literals -/

/-- `close` never succeeds. -/
theorem Husk.step_close (ik : IndexKind) (h : Husk) :
    ∃ e, (h.step ik (.close : Op α)).2 = .error e ∧
      (e = .missingNode 0 ∨ e = .closeError) ∧ (e = .missingNode 0 ↔ h.isOpen = true) := by
  simp only [Husk.step]
  cases h.isOpen
  · exact ⟨_, rfl, .inr rfl, by simp⟩
  · exact ⟨_, rfl, .inl rfl, by simp⟩

theorem tryRunK_append (keep : Bool) (a : List (Op α)) : ∀ (b : List (Op α)) (s : Sys α),
    s.tryRunK keep fl (a ++ b) = match s.tryRunK keep fl a with
      | .ok s' => s'.tryRunK keep fl b
      | .error e => .error e := by
  induction a with
  | nil => intro b s; rfl
  | cons op a ih =>
    intro b s
    simp only [List.cons_append, Sys.tryRunK]
    rcases s.stepK keep fl op with ⟨s', _ | _⟩
    · rfl
    · exact ih b s'

theorem addressable_mono {ik : IndexKind} {a b : Nat} (h : a ≤ b) (hb : Lit.Addressable ik b) :
    Lit.Addressable ik a := by
  cases ik with
  | bits w => exact Nat.lt_of_le_of_lt h hb
  | empty => trivial

/-- A token, on such a builder. -/
theorem token_husk (hw : 0 < fl.width) {s : Sys α} {h : Husk} (hr : HuskRep s h) (d : α) (n : Nat) :
    (s.stepK false fl (.token d n)).2 = .error .overflow ∧
      ¬ Lit.Addressable fl.ik (h.cursor + Lit.tokenLen fl.ik n) ∨
    (s.stepK false fl (.token d n)).2 = .ok (.id 0) ∧
      ∃ h', HuskRep (s.stepK false fl (.token d n)).1 h' ∧ h'.isOpen = h.isOpen ∧
        (h.cursor = h.stop → h'.cursor = h'.stop ∧ h'.cursor = h.cursor + Lit.tokenLen fl.ik n) := by
  obtain ⟨h1, h2⟩ := hr.step hw (.token d n)
  rw [h2]
  cases hik : fl.ik with
  | empty =>
    refine .inr ⟨by simp [Husk.step, IndexKind.lenIsEmpty], h, ?_, rfl, fun hc => ⟨hc, rfl⟩⟩
    simpa [Husk.step, hik, IndexKind.lenIsEmpty] using h1
  | bits w =>
    by_cases hn : n = 0
    · subst hn
      refine .inr ⟨by simp [Husk.step, IndexKind.lenIsEmpty], h, ?_, rfl, fun hc => ⟨hc, rfl⟩⟩
      simpa [Husk.step, hik, IndexKind.lenIsEmpty] using h1
    · by_cases hb : h.cursor + n < 2 ^ w
      · refine .inr ⟨by simp [Husk.step, IndexKind.lenIsEmpty, hn, IndexKind.checkedAddLen, hb],
          { h with cursor := h.cursor + n, stop := h.cursor + n }, ?_, rfl, fun _ => ⟨rfl, rfl⟩⟩
        simpa [Husk.step, hik, IndexKind.lenIsEmpty, hn, IndexKind.checkedAddLen, hb] using h1
      · refine .inl ⟨by simp [Husk.step, IndexKind.lenIsEmpty, hn, IndexKind.checkedAddLen, hb], ?_⟩
        simpa [Lit.Addressable, Lit.tokenLen] using hb

/-- Running the calls of a literal: it stops at the first `close` at the latest. -/
theorem lit_husk (hw : 0 < fl.width) (lit : Lit α) : ∀ {s : Sys α} {h : Husk}, HuskRep s h →
    (s.tryRunK false fl lit.calls = .error .overflow ∧
      (lit.plain = true → h.cursor = h.stop →
        ¬ Lit.Addressable fl.ik (h.cursor + lit.len fl.ik))) ∨
    (s.tryRunK false fl lit.calls = .error (.missingNode 0) ∧ lit.braces = true) ∨
    (∃ s' h', s.tryRunK false fl lit.calls = .ok s' ∧ HuskRep s' h' ∧ h'.isOpen = h.isOpen ∧
      lit.braces = false ∧ (lit.plain = true → h.cursor = h.stop →
        h'.cursor = h'.stop ∧ h'.cursor = h.cursor + lit.len fl.ik)) := by
  -- a node with children
  have inner : ∀ (k r : Lit α) (op : Op α), (∀ {s : Sys α} {h : Husk}, HuskRep s h →
      (s.tryRunK false fl k.calls = .error .overflow ∧
        (k.plain = true → h.cursor = h.stop →
          ¬ Lit.Addressable fl.ik (h.cursor + k.len fl.ik))) ∨
      (s.tryRunK false fl k.calls = .error (.missingNode 0) ∧ k.braces = true) ∨
      (∃ s' h', s.tryRunK false fl k.calls = .ok s' ∧ HuskRep s' h' ∧ h'.isOpen = h.isOpen ∧
        k.braces = false ∧ (k.plain = true → h.cursor = h.stop →
          h'.cursor = h'.stop ∧ h'.cursor = h.cursor + k.len fl.ik))) →
      ∀ {s : Sys α} {h : Husk}, HuskRep s h →
      (h.step fl.ik op) = ({ h with isOpen := true }, .ok (.id 0)) →
      (s.tryRunK false fl (op :: (k.calls ++ .close :: r.calls)) = .error .overflow ∧
        (k.plain = true → h.cursor = h.stop →
          ¬ Lit.Addressable fl.ik (h.cursor + (k.len fl.ik + r.len fl.ik)))) ∨
      s.tryRunK false fl (op :: (k.calls ++ .close :: r.calls)) = .error (.missingNode 0) := by
    intro k r op ihk s h hr hop
    obtain ⟨h1, h2⟩ := hr.step hw op
    rw [hop] at h1 h2
    have e : s.tryRunK false fl (op :: (k.calls ++ .close :: r.calls)) =
        (s.stepK false fl op).1.tryRunK false fl (k.calls ++ .close :: r.calls) := by
      rw [Sys.tryRunK]
      rcases hst : s.stepK false fl op with ⟨s2, o⟩
      rw [hst] at h2
      simp only at h2
      subst h2
      rfl
    rw [e, tryRunK_append]
    rcases ihk h1 with ⟨q1, q2⟩ | ⟨q1, _⟩ | ⟨s', h', q1, q2, q3, _, _⟩
    · left
      rw [q1]
      refine ⟨rfl, fun hp hc ha => q2 hp hc (addressable_mono ?_ ha)⟩
      simp only; omega
    · right; rw [q1]
    · right
      rw [q1]
      obtain ⟨_, h4⟩ := q2.step hw .close
      simp only [Husk.step, q3, if_true] at h4
      simp only [Sys.tryRunK]
      rcases hst : s'.stepK false fl .close with ⟨s2, o⟩
      rw [hst] at h4
      simp only at h4
      subst h4
      rfl
  -- a token
  have leaf : ∀ (r : Lit α) (op : Op α) (n : Nat) (pl : Prop), (∀ {s : Sys α} {h : Husk}, HuskRep s h →
      (s.tryRunK false fl r.calls = .error .overflow ∧
        (r.plain = true → h.cursor = h.stop →
          ¬ Lit.Addressable fl.ik (h.cursor + r.len fl.ik))) ∨
      (s.tryRunK false fl r.calls = .error (.missingNode 0) ∧ r.braces = true) ∨
      (∃ s' h', s.tryRunK false fl r.calls = .ok s' ∧ HuskRep s' h' ∧ h'.isOpen = h.isOpen ∧
        r.braces = false ∧ (r.plain = true → h.cursor = h.stop →
          h'.cursor = h'.stop ∧ h'.cursor = h.cursor + r.len fl.ik))) →
      ∀ {s : Sys α} {h : Husk}, HuskRep s h →
      ((s.stepK false fl op).2 = .error .overflow ∧
        ¬ Lit.Addressable fl.ik (h.cursor + n) ∨
      (s.stepK false fl op).2 = .ok (.id 0) ∧
        ∃ h', HuskRep (s.stepK false fl op).1 h' ∧ h'.isOpen = h.isOpen ∧
          (pl → h.cursor = h.stop → h'.cursor = h'.stop ∧ h'.cursor = h.cursor + n)) →
      (s.tryRunK false fl (op :: r.calls) = .error .overflow ∧
        (pl ∧ r.plain = true → h.cursor = h.stop →
          ¬ Lit.Addressable fl.ik (h.cursor + (n + r.len fl.ik)))) ∨
      (s.tryRunK false fl (op :: r.calls) = .error (.missingNode 0) ∧ r.braces = true) ∨
      (∃ s' h', s.tryRunK false fl (op :: r.calls) = .ok s' ∧ HuskRep s' h' ∧
        h'.isOpen = h.isOpen ∧ r.braces = false ∧ (pl ∧ r.plain = true → h.cursor = h.stop →
          h'.cursor = h'.stop ∧ h'.cursor = h.cursor + (n + r.len fl.ik))) := by
    intro r op n pl ihr s h hr hst
    simp only [Sys.tryRunK]
    rcases hs : s.stepK false fl op with ⟨s2, o⟩
    rw [hs] at hst
    rcases hst with ⟨e, ha⟩ | ⟨e, h', hr', ho, hc'⟩
    · simp only at e
      subst e
      exact .inl ⟨rfl, fun _ _ hh => ha (addressable_mono (by omega) hh)⟩
    · simp only at e hr'
      subst e
      rcases ihr hr' with ⟨q1, q2⟩ | ⟨q1, q2⟩ | ⟨s', h2, q1, q2, q3, q4, q5⟩
      · refine .inl ⟨q1, fun hp hc hh => ?_⟩
        obtain ⟨c1, c2⟩ := hc' hp.1 hc
        refine q2 hp.2 c1 ?_
        rw [c2, Nat.add_assoc]; exact hh
      · exact .inr (.inl ⟨q1, q2⟩)
      · refine .inr (.inr ⟨s', h2, q1, q2, q3.trans ho, q4, fun hp hc => ?_⟩)
        obtain ⟨c1, c2⟩ := hc' hp.1 hc
        obtain ⟨c3, c4⟩ := q5 hp.2 c1
        exact ⟨c3, by omega⟩
  induction lit with
  | nil =>
    intro s h hr
    exact .inr (.inr ⟨s, h, rfl, hr, rfl, rfl, fun _ hc => ⟨hc, rfl⟩⟩)
  | node d k r ihk ihr =>
    intro s h hr
    rcases inner k r (.open d) ihk hr rfl with ⟨q1, q2⟩ | q1
    · refine .inl ⟨q1, fun hp hc => q2 ?_ hc⟩
      simp only [Lit.plain, Bool.and_eq_true] at hp
      exact hp.1
    · exact .inr (.inl ⟨q1, rfl⟩)
  | nodeWith d sp k r ihk ihr =>
    intro s h hr
    rcases inner k r (.openWith d sp) ihk hr rfl with ⟨q1, q2⟩ | q1
    · exact .inl ⟨q1, fun hp => by simp [Lit.plain] at hp⟩
    · exact .inr (.inl ⟨q1, rfl⟩)
  | token d n r ihr =>
    intro s h hr
    have := leaf r (.token d n) (Lit.tokenLen fl.ik n) True ihr hr (by
      rcases token_husk hw hr d n with a | ⟨a, h', b, c, e⟩
      · exact .inl a
      · exact .inr ⟨a, h', b, c, fun _ => e⟩)
    simpa [Lit.calls, Lit.plain, Lit.len, Lit.braces] using this
  | tokenEmpty d r ihr =>
    intro s h hr
    have := leaf r (.tokenEmpty d) 0 True ihr hr (by
      obtain ⟨h1, h2⟩ := hr.step hw (.tokenEmpty d)
      exact .inr ⟨h2, h, h1, rfl, fun _ hc => ⟨hc, rfl⟩⟩)
    simpa [Lit.calls, Lit.plain, Lit.len, Lit.braces] using this
  | tokenWith d sp r ihr =>
    intro s h hr
    have := leaf r (.tokenWith d sp) 0 False ihr hr (by
      obtain ⟨h1, h2⟩ := hr.step hw (.tokenWith d sp)
      exact .inr ⟨h2, _, h1, rfl, fun hf => hf.elim⟩)
    simpa [Lit.calls, Lit.plain, Lit.len, Lit.braces] using this

end Syntree
