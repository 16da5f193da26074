import Verif.Proof.Seg
import Verif.Proof.Pointer
import Verif.Spec.Nested

/-! `insert`, `close` and `close_at` on represented trees. -/

namespace Syntree

variable {α : Type}

open Forest

abbrev Stack (α : Type) := List (Lab α × Forest (Lab α))

/-- The id of the innermost open node. -/
abbrev parOf (st : Stack α) : Option Nat := st.head?.map (·.1.id)

/-- The tree stores the children `cur` of the innermost open node and the open nodes `stack`. -/
structure TRep (g : Bool) (t : Tree α) (cur : Forest (Lab α)) (st : Stack α) (count : Nat) :
    Prop where
  seg : Seg g t.nodes cur (parOf st) none none
  ctx : RepCtx g t.nodes t.first t.last st cur.headId (fun l => LastRel g (parOf st) l cur)
  ids : (cur.ids ++ stackIds st).Perm (List.range count)
  len : t.nodes.length = count

theorem TRep.nodup {g : Bool} {t : Tree α} {cur : Forest (Lab α)} {st : Stack α} {count : Nat}
    (h : TRep g t cur st count) : (cur.ids ++ stackIds st).Nodup :=
  h.ids.nodup_iff.2 List.nodup_range

theorem TRep.lt {g : Bool} {t : Tree α} {cur : Forest (Lab α)} {st : Stack α} {count : Nat}
    (h : TRep g t cur st count) {i : Nat} (hi : i ∈ cur.ids ++ stackIds st) : i < count := by
  have := h.ids.mem_iff.1 hi
  simpa using this

theorem TRep.weaken {g : Bool} {t : Tree α} {cur : Forest (Lab α)} {st : Stack α} {count : Nat}
    (h : TRep g t cur st count) : TRep false t cur st count :=
  ⟨h.seg.weaken, h.ctx.weaken.congr (fun _ h => h.weaken) (fun _ _ => rfl), h.ids, h.len⟩

/-- `RepCtx` only looks at nodes, `first` and `last`. -/
theorem TRep.congr {g : Bool} {t t' : Tree α} {cur : Forest (Lab α)} {st : Stack α} {count : Nat}
    (h : TRep g t cur st count) (hn : t'.nodes = t.nodes) (hf : t'.first = t.first)
    (hl : t'.last = t.last) : TRep g t' cur st count := by
  obtain ⟨a, b, c, d⟩ := h
  exact ⟨hn ▸ a, by rw [hn, hf, hl]; exact b, c, hn ▸ d⟩

theorem stackIds_endParent (stop : Nat) (st : Stack α) :
    stackIds (Nest.endParent stop st) = stackIds st := by
  cases st with
  | nil => rfl
  | cons p st => obtain ⟨x, l⟩ := p; rfl

theorem stackIds_growParent (sp : Span) (st : Stack α) :
    stackIds (Nest.growParent sp st) = stackIds st := by
  cases st with
  | nil => rfl
  | cons p st => obtain ⟨x, l⟩ := p; rfl

theorem parOf_endParent (stop : Nat) (st : Stack α) :
    parOf (Nest.endParent stop st) = parOf st := by
  cases st with
  | nil => rfl
  | cons p st => obtain ⟨x, l⟩ := p; rfl

theorem parOf_growParent (sp : Span) (st : Stack α) :
    parOf (Nest.growParent sp st) = parOf st := by
  cases st with
  | nil => rfl
  | cons p st => obtain ⟨x, l⟩ := p; rfl

theorem parOf_mem {st : Stack α} {i : Nat} (h : parOf st = some i) : i ∈ stackIds st := by
  cases st with
  | nil => simp [parOf] at h
  | cons p st => obtain ⟨x, l⟩ := p; simp [parOf] at h; simp [stackIds, h]

/-- What `insert` does, when a pointer is left. -/
theorem insert_ok {fl : Flavor} {b : Builder α} {d : α} {sp : Span}
    (hc : b.tree.nodes.length < 2 ^ fl.width - 1)
    (hp : ∀ i, b.parent = some i → i < b.tree.nodes.length)
    (hs : ∀ i, b.sibling = some i → i < b.tree.nodes.length)
    (hps : ∀ i, b.parent = some i → b.sibling ≠ some i) :
    ∃ T : Tree α,
      b.insert fl d sp = ({ b with tree := T, sibling := none }, .ok b.tree.nodes.length) ∧
      T.nodes.length = b.tree.nodes.length + 1 ∧
      T.indexes = b.tree.indexes ∧ T.span = b.tree.span ∧
      T.nodes[b.tree.nodes.length]? = some ⟨d, sp, b.parent, b.sibling, none, none, none⟩ ∧
      (∀ i, b.parent = some i → T.nodes[i]? =
        (b.tree.nodes[i]?).map (Links.addChild b.tree.nodes.length sp)) ∧
      (∀ i, b.sibling = some i → T.nodes[i]? =
        (b.tree.nodes[i]?).map (fun l => { l with next := some b.tree.nodes.length })) ∧
      (∀ i, i < b.tree.nodes.length → b.parent ≠ some i → b.sibling ≠ some i →
        T.nodes[i]? = b.tree.nodes[i]?) ∧
      (T.first = if b.parent = none then b.tree.first.or (some b.tree.nodes.length)
        else b.tree.first) ∧
      (T.last = if b.parent = none then some b.tree.nodes.length else b.tree.last) := by
  unfold Builder.insert
  simp only [Tree.len]
  rw [ptrNew_eq, if_pos hc]
  dsimp only
  refine ⟨_, rfl, ?_⟩
  rcases hbp : b.parent with _ | p <;> rcases hbs : b.sibling with _ | s
  · simp [Tree.push, Tree.addRoot, Tree.modifyOpt]
    refine ⟨fun i hi => ?_, ?_⟩
    · rw [List.getElem?_append_left hi]
    · cases b.tree.first <;> rfl
  · have hs' := hs s hbs
    have hne : s ≠ b.tree.nodes.length := by omega
    simp [Tree.push, Tree.addRoot, Tree.modifyOpt, Tree.modifyNode, List.getElem?_modify,
      List.getElem?_append_left, hs', hne]
    refine ⟨fun i hi hsi => ?_, ?_⟩
    · simp [hsi, List.getElem?_append_left hi]
    · cases b.tree.first <;> rfl
  · have hp' := hp p hbp
    have hne : p ≠ b.tree.nodes.length := by omega
    simp [Tree.push, Tree.modifyOpt, Tree.modifyNode, List.getElem?_modify,
      List.getElem?_append_left, hp', hne]
    intro i hi hpi
    simp [hpi, List.getElem?_append_left hi]
  · have hp' := hp p hbp
    have hne : p ≠ b.tree.nodes.length := by omega
    have hs' := hs s hbs
    have hne' : s ≠ b.tree.nodes.length := by omega
    have hps' : s ≠ p := by
      have := hps p hbp; rw [hbs] at this; simpa using this
    simp [Tree.push, Tree.modifyOpt, Tree.modifyNode, List.getElem?_modify,
      List.getElem?_append_left, hp', hne, hs', hne', hps', Ne.symm hps']
    intro i hi hpi hsi
    simp only [hpi, hsi, List.getElem?_append_left hi, if_false]
    cases b.tree.nodes[i]? <;> rfl

/-- The shared part of inserting a leaf and of opening a node. -/
theorem TRep.insert {g : Bool} {fl : Flavor} {b : Builder α} {d : α} {sp : Span}
    {cur : Forest (Lab α)} {st : Stack α} {count : Nat}
    (h : TRep g b.tree cur st count) (hpar : b.parent = parOf st) (hsib : b.sibling = cur.lastId)
    (hc : count < 2 ^ fl.width - 1) :
    ∃ T : Tree α,
      b.insert fl d sp = ({ b with tree := T, sibling := none }, .ok count) ∧
      T.nodes.length = count + 1 ∧ T.indexes = b.tree.indexes ∧ T.span = b.tree.span ∧
      T.nodes[count]? = some (mkLinks ⟨count, d, sp⟩ (parOf st) cur.lastId none none none) ∧
      Seg g T.nodes cur (parOf st) none (some count) ∧
      RepCtx g T.nodes T.first T.last (Nest.endParent sp.stop st)
        (cur.headId.or (some count)) (· = some count) := by
  have nd := h.nodup
  obtain ⟨nd1, nd2, nd3⟩ := List.nodup_append.1 nd
  have hlt : ∀ {i}, i ∈ cur.ids ++ stackIds st → i < count := h.lt
  obtain ⟨T, e, l, ix, spn, enew, epar, esib, eoth, efirst, elast⟩ :=
    insert_ok (fl := fl) (b := b) (d := d) (sp := sp) (by rw [h.len]; exact hc)
      (by intro i hi; rw [h.len]; exact hlt (List.mem_append_right _ (parOf_mem (hpar ▸ hi))))
      (by intro i hi; rw [h.len]; exact hlt (List.mem_append_left _ (lastId_mem (hsib ▸ hi))))
      (by
        intro i hi hi'
        rw [hpar] at hi; rw [hsib] at hi'
        exact nd3 i (lastId_mem hi') i (parOf_mem hi) rfl)
  rw [h.len] at *
  refine ⟨T, e, l, ix, spn, ?_, ?_, ?_⟩
  · rw [enew, hpar, hsib]; rfl
  · refine h.seg.setNext nd1 ?_ ?_
    · intro i hi hne
      refine eoth i (hlt (List.mem_append_left _ hi)) ?_ ?_
      · rw [hpar]; intro hp; exact nd3 i hi i (parOf_mem hp) rfl
      · rw [hsib]; exact fun h => hne h.symm
    · intro i hi; exact esib i (hsib ▸ hi)
  · cases st with
    | nil =>
      obtain ⟨c1, c2⟩ := h.ctx
      have : b.parent = none := by rw [hpar]; rfl
      simp only [this, if_true] at efirst elast
      exact ⟨by rw [efirst, c1], elast⟩
    | cons p st =>
      obtain ⟨x, left⟩ := p
      obtain ⟨⟨l', hl', hx⟩, hs, hst⟩ := h.ctx
      have hparx : b.parent = some x.id := by rw [hpar]; rfl
      simp only [hparx, reduceCtorEq, if_false] at efirst elast
      have nd2' := nd2
      simp only [stackIds] at nd2'
      rw [List.nodup_cons] at nd2'
      have other : ∀ i ∈ left.ids ++ stackIds st, T.nodes[i]? = b.tree.nodes[i]? := by
        intro i hi
        have hi' : i ∈ stackIds ((x, left) :: st) := by
          simp only [stackIds]; exact List.mem_cons_of_mem _ hi
        refine eoth i (hlt (List.mem_append_right _ hi')) ?_ ?_
        · rw [hparx]; intro he; simp at he; exact nd2'.1 (he ▸ hi)
        · rw [hsib]; intro he; exact nd3 i (lastId_mem he) i hi' rfl
      refine ⟨⟨some count, ⟨rfl, fun j hj => ?_⟩, ?_⟩, ?_, ?_⟩
      · show x.id < j
        cases hh : cur.headId with
        | none =>
          rw [hh] at hj
          simp only [Option.none_or, Option.some.injEq] at hj
          rw [← hj]
          exact hlt (List.mem_append_right _ (by simp [stackIds]))
        | some i =>
          rw [hh] at hj
          simp only [Option.some_or, Option.some.injEq] at hj
          rw [← hj]
          exact hl'.2 i hh
      · show T.nodes[x.id]? = _
        rw [epar x.id hparx, hx]
        simp only [Option.map_some, Links.addChild, mkLinks, Option.some.injEq, Links.mk.injEq,
          true_and, and_true]
        cases cur.headId <;> rfl
      · exact hs.congr fun i hi => other i (List.mem_append_left _ hi)
      · rw [efirst, elast]
        exact hst.congr (fun _ h => h) fun i hi => other i (List.mem_append_right _ hi)

theorem range_perm_snoc {l : List Nat} {count : Nat} (h : l.Perm (List.range count)) :
    (count :: l).Perm (List.range (count + 1)) := by
  rw [List.range_succ]
  exact (h.cons count).trans (List.perm_append_singleton count _).symm

/-- Inserting a leaf. -/
theorem TRep.insertLeaf {g : Bool} {fl : Flavor} {b : Builder α} {d : α} {sp : Span}
    {cur : Forest (Lab α)} {st : Stack α} {count : Nat}
    (h : TRep g b.tree cur st count) (hpar : b.parent = parOf st) (hsib : b.sibling = cur.lastId)
    (hc : count < 2 ^ fl.width - 1) :
    ∃ T : Tree α,
      b.insert fl d sp = ({ b with tree := T, sibling := none }, .ok count) ∧
      T.indexes = b.tree.indexes ∧ T.span = b.tree.span ∧
      TRep g T (cur ++ leaf ⟨count, d, sp⟩) (Nest.endParent sp.stop st) (count + 1) := by
  obtain ⟨T, e, l, ix, spn, enew, eseg, ectx⟩ := h.insert (fl := fl) (d := d) (sp := sp) hpar hsib hc
  refine ⟨T, e, ix, spn, ?_, ?_, ?_, l⟩
  · rw [parOf_endParent, Seg_append]
    refine ⟨by simpa using eseg, ⟨none, LastRel.nil, ?_⟩, trivial, trivial⟩
    rw [enew]; simp
  · have : (cur ++ leaf (⟨count, d, sp⟩ : Lab α)).headId = cur.headId.or (some count) := by
      rw [headId_append]; rfl
    rw [this]
    refine ectx.congr ?_ (fun _ _ => rfl)
    rintro l rfl
    have hlast : (cur ++ leaf (⟨count, d, sp⟩ : Lab α)).lastId = some count := by
      rw [lastId_append]; rfl
    rw [← hlast]; exact LastRel.exact (by rw [hlast]; exact lastLink_fresh rfl)
  · rw [stackIds_endParent]
    have := range_perm_snoc h.ids
    refine List.Perm.trans ?_ this
    simp only [ids_append, ids_cons, ids_nil, List.append_nil, List.append_assoc,
      List.singleton_append]
    exact List.perm_middle

/-- Opening a node. -/
theorem TRep.insertOpen {g : Bool} {fl : Flavor} {b : Builder α} {d : α} {sp : Span}
    {cur : Forest (Lab α)} {st : Stack α} {count : Nat}
    (h : TRep g b.tree cur st count) (hpar : b.parent = parOf st) (hsib : b.sibling = cur.lastId)
    (hc : count < 2 ^ fl.width - 1) :
    ∃ T : Tree α,
      b.insert fl d sp = ({ b with tree := T, sibling := none }, .ok count) ∧
      T.indexes = b.tree.indexes ∧ T.span = b.tree.span ∧
      TRep g T .nil ((⟨count, d, sp⟩, cur) :: Nest.endParent sp.stop st) (count + 1) := by
  obtain ⟨T, e, l, ix, spn, enew, eseg, ectx⟩ := h.insert (fl := fl) (d := d) (sp := sp) hpar hsib hc
  refine ⟨T, e, ix, spn, trivial, ⟨⟨none, ⟨LastRel.nil, fun j hj => by simp at hj⟩, ?_⟩, ?_, ectx⟩, ?_, l⟩
  · have := parOf_endParent sp.stop st
    simp only [parOf] at this
    rw [this, enew]; simp
  · have := parOf_endParent sp.stop st
    simp only [parOf] at this
    rw [this]; exact eseg
  · simp only [ids_nil, List.nil_append, stackIds, stackIds_endParent]
    exact range_perm_snoc h.ids

/-- Extending the span of the innermost open node. -/
theorem RepCtx.grow {g : Bool} {nodes nodes' : List (Links α)} {f l : Option Nat}
    {st : Stack α} {h : Option Nat} {L : Option Nat → Prop} {sp : Span}
    (hr : RepCtx g nodes f l st h L) (nd : (stackIds st).Nodup)
    (e : ∀ i, parOf st = some i →
      nodes'[i]? = (nodes[i]?).map (fun p => { p with span := p.span.join sp }))
    (e' : ∀ i ∈ stackIds st, parOf st ≠ some i → nodes'[i]? = nodes[i]?) :
    RepCtx g nodes' f l (Nest.growParent sp st) h L := by
  cases st with
  | nil => exact hr
  | cons p st =>
    obtain ⟨x, left⟩ := p
    obtain ⟨⟨l', hl', hx⟩, hs, hst⟩ := hr
    simp only [stackIds, List.nodup_cons] at nd
    have other : ∀ i ∈ left.ids ++ stackIds st, nodes'[i]? = nodes[i]? := by
      intro i hi
      refine e' i (by simp only [stackIds]; exact List.mem_cons_of_mem _ hi) ?_
      simp only [parOf, List.head?_cons, Option.map_some, ne_eq, Option.some.injEq]
      rintro rfl; exact nd.1 hi
    refine ⟨⟨l', hl', ?_⟩, ?_, ?_⟩
    · rw [e x.id rfl, hx]; simp [mkLinks]
    · exact hs.congr fun i hi => other i (List.mem_append_left _ hi)
    · exact hst.congr (fun _ h => h) fun i hi => other i (List.mem_append_right _ hi)

/-- Extending the span of the innermost open node, on the whole tree. -/
theorem TRep.grow {g : Bool} {t : Tree α} {cur : Forest (Lab α)} {st : Stack α} {count : Nat}
    (h : TRep g t cur st count) (sp : Span) :
    TRep g (t.modifyOpt (parOf st) (fun p => { p with span := p.span.join sp })) cur
      (Nest.growParent sp st) count := by
  have nd := h.nodup
  obtain ⟨nd1, nd2, nd3⟩ := List.nodup_append.1 nd
  cases hp : parOf st with
  | none =>
    have : st = [] := by cases st with
      | nil => rfl
      | cons p st => simp [parOf] at hp
    subst this; exact h
  | some p =>
    have pm := parOf_mem hp
    simp only [Tree.modifyOpt, Tree.modifyNode]
    refine ⟨?_, ?_, ?_, by simp [h.len]⟩
    · rw [parOf_growParent]
      refine h.seg.congr fun i hi => ?_
      have : p ≠ i := by rintro rfl; exact nd3 p hi p pm rfl
      simp [this]
    · rw [parOf_growParent]
      refine h.ctx.grow nd2 ?_ ?_
      · intro i hi
        rw [hp] at hi; simp only [Option.some.injEq] at hi; subst hi
        simp
      · intro i hi hne
        rw [hp] at hne
        have : p ≠ i := by rintro rfl; exact hne rfl
        simp [this]
    · rw [stackIds_growParent]; exact h.ids

/-- Closing the innermost open node, before the parent's span is extended. -/
theorem TRep.pop {g : Bool} {t : Tree α} {cur left : Forest (Lab α)} {x : Lab α} {st : Stack α}
    {count : Nat} (h : TRep g t cur ((x, left) :: st) count) :
    TRep g t (left ++ single x cur) st count := by
  obtain ⟨⟨l, hl, hx⟩, hs, hst⟩ := h.ctx
  refine ⟨?_, ?_, ?_, h.len⟩
  · rw [Seg_append]
    refine ⟨by simpa using hs, ⟨l, hl.1, ?_⟩, ?_, trivial⟩
    · rw [hx]; simp
    · exact h.seg
  · have : (left ++ single x cur).headId = left.headId.or (some x.id) := by
      rw [headId_append]; rfl
    rw [this]
    refine hst.congr ?_ (fun _ _ => rfl)
    rintro l rfl
    have hlast : (left ++ single x cur).lastId = some x.id := by rw [lastId_append]; rfl
    rw [← hlast]
    exact LastRel.exact (by rw [hlast]; exact lastLink_fresh (wrappedBy_false hl.2))
  · refine List.Perm.trans ?_ h.ids
    simp only [ids_append, ids_cons, ids_nil, List.append_nil, stackIds, List.append_assoc,
      List.cons_append]
    -- left ++ x :: (cur ++ st) ~ cur ++ x :: (left ++ st)
    refine List.Perm.trans List.perm_middle (List.Perm.trans ?_ List.perm_middle.symm)
    refine List.Perm.cons _ ?_
    rw [← List.append_assoc, ← List.append_assoc]
    exact List.Perm.append_right _ List.perm_append_comm

end Syntree
