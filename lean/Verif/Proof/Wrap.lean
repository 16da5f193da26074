import Verif.Proof.Insert

/-! `close_at` around existing siblings. -/

namespace Syntree

variable {α : Type}

open Forest

/-- With an open node, the first root is an open node or a sibling before one. -/
theorem RepCtx.first_mem {g : Bool} {nodes : List (Links α)} {f l : Option Nat}
    {x : Lab α} {left : Forest (Lab α)} {st : Stack α} {h : Option Nat} {L : Option Nat → Prop}
    (hr : RepCtx g nodes f l ((x, left) :: st) h L) :
    ∃ i, f = some i ∧ i ∈ stackIds ((x, left) :: st) := by
  induction st generalizing x left h L with
  | nil =>
    obtain ⟨_, _, h1, _⟩ := hr
    rw [h1]
    cases hl : left.headId with
    | none => exact ⟨x.id, rfl, by simp [stackIds]⟩
    | some i => exact ⟨i, rfl, by simp [stackIds, headId_mem hl]⟩
  | cons p st ih =>
    obtain ⟨y, l'⟩ := p
    obtain ⟨_, _, h1⟩ := hr
    obtain ⟨i, h2, h3⟩ := ih h1
    exact ⟨i, h2, by rw [stackIds]; simp [h3]⟩

/-- What happens to the wrapped siblings. -/
theorem reparent_spec {g : Bool} {nodes : List (Links α)} {y : Lab α} {ky r : Forest (Lab α)}
    {par prev : Option Nat} {ly : Option Nat} (newId : Nat)
    (hs : Seg g nodes (.cons y ky r) par prev none)
    (hy : nodes[y.id]? = some (mkLinks y par prev (r.headId.or none) ky.headId ly))
    (nd : (Forest.cons y ky r).ids.Nodup) (hw : (Forest.cons y ky r).tops.length ≤ nodes.length) :
    ∃ nodes2 : List (Links α),
      reparent newId y.id (mkLinks y par prev (r.headId.or none) ky.headId ly) nodes =
        (nodes2, .ok (((Forest.cons y ky r).lastId).getD 0, Nest.stretch (Forest.cons y ky r))) ∧
      nodes2.length = nodes.length ∧
      nodes2[y.id]? = some (mkLinks y (some newId) none (r.headId.or none) ky.headId ly) ∧
      (∀ i ∈ r.topIds, nodes2[i]? =
        (nodes[i]?).map (fun l => { l with parent := some newId })) ∧
      (∀ i, i ≠ y.id → i ∉ r.topIds → nodes2[i]? = nodes[i]?) := by
  have hlt : y.id < nodes.length := (List.getElem?_eq_some_iff.1 hy).1
  obtain ⟨_, hk, hr⟩ := hs
  rw [ids_cons, List.nodup_cons, List.mem_append, List.nodup_append] at nd
  obtain ⟨h1, h2, h3, h4⟩ := nd
  cases r with
  | nil =>
    refine ⟨_, rfl, by simp, ?_, by simp, ?_⟩
    · rw [List.getElem?_set_self hlt]; rfl
    · intro i hi _; rw [List.getElem?_set_ne (Ne.symm hi)]
  | cons z kz r' =>
    have hr' : Seg g (nodes.set y.id
        { mkLinks y par prev (some z.id) ky.headId ly with parent := some newId, prev := none })
        (.cons z kz r') par (some y.id) none := by
      refine hr.congr fun i hi => ?_
      have : y.id ≠ i := fun he => h1 (Or.inr (he ▸ hi))
      rw [List.getElem?_set_ne this]
    obtain ⟨nodes', e1, e2, e3⟩ := restructure_spec newId _ z kz r' par (some y.id)
      (nodes.length + 1) hr' h3 (by simp at hw ⊢; omega)
    refine ⟨nodes', ?_, by simpa using e2, ?_, ?_, ?_⟩
    · simp only [reparent, headId_cons, Option.some_or, mkLinks, List.length_set] at e1 ⊢
      rw [e1]
      obtain ⟨j, hj⟩ := lastId_isSome (F := Forest.cons z kz r') (by simp)
      have hl2 : (Forest.cons y ky (Forest.cons z kz r')).last? =
          (Forest.cons z kz r').last? := by simp [last?, List.getLast?_cons]
      simp only [Nest.stretch]
      rw [lastId_cons y, hj, hl2]
      simp [Span.new, head?]
    · rw [e3, if_neg (fun h => h1 (Or.inr (mem_ids_of_mem_topIds h))), List.getElem?_set_self hlt]
      rfl
    · intro i hi
      rw [e3, if_pos hi, List.getElem?_set_ne]
      rintro rfl; exact h1 (Or.inr (mem_ids_of_mem_topIds hi))
    · intro i hne hi
      rw [e3, if_neg hi, List.getElem?_set_ne (Ne.symm hne)]

/-- What `relink` does, pointwise. -/
theorem relink_spec {t : Tree α} {id : Nat} {parent prev : Option Nat} {new : Links α}
    (hp : ∀ i, parent = some i → i < t.nodes.length)
    (hq : ∀ i, prev = some i → i < t.nodes.length)
    (hpq : ∀ i, parent = some i → prev ≠ some i) :
    let T := t.relink id t.nodes.length parent prev new
    T.nodes.length = t.nodes.length + 1 ∧ T.indexes = t.indexes ∧ T.span = t.span ∧
    T.nodes[t.nodes.length]? = some new ∧
    (∀ i, parent = some i → T.nodes[i]? = (t.nodes[i]?).map (fun p =>
      { p with
        first := if p.first = some id then some t.nodes.length else p.first
        last := if p.last = some id then some t.nodes.length else p.last })) ∧
    (∀ i, prev = some i → T.nodes[i]? =
      (t.nodes[i]?).map (fun p => { p with next := some t.nodes.length })) ∧
    (∀ i, i < t.nodes.length → parent ≠ some i → prev ≠ some i → T.nodes[i]? = t.nodes[i]?) ∧
    (T.first = if t.first = some id then some t.nodes.length else t.first) ∧
    T.last = t.last := by
  rcases parent with _ | p <;> rcases prev with _ | q
  · simp [Tree.relink, Tree.push, Tree.modifyOpt]
    refine ⟨fun i hi => by rw [List.getElem?_append_left hi], by by_cases hf : t.first = some id <;> simp [hf]⟩
  · have hq' := hq q rfl
    simp [Tree.relink, Tree.push, Tree.modifyOpt, Tree.modifyNode, List.getElem?_append_left, hq']
    refine ⟨fun i hi hqi => ?_, by by_cases hf : t.first = some id <;> simp [hf]⟩
    rw [List.getElem?_append_left (by simpa using hi)]
    simp [hqi]
  · have hp' := hp p rfl
    simp [Tree.relink, Tree.push, Tree.modifyOpt, Tree.modifyNode, List.getElem?_append_left, hp']
    refine ⟨fun i hi hpi => ?_, by by_cases hf : t.first = some id <;> simp [hf]⟩
    rw [List.getElem?_append_left (by simpa using hi)]
    simp [hpi]
  · have hp' := hp p rfl
    have hq' := hq q rfl
    have hne : q ≠ p := by have := hpq p rfl; simpa using this
    simp [Tree.relink, Tree.push, Tree.modifyOpt, Tree.modifyNode, List.getElem?_append_left, hp',
      hq', hne, Ne.symm hne]
    refine ⟨fun i hi hpi hqi => ?_, by by_cases hf : t.first = some id <;> simp [hf]⟩
    rw [List.getElem?_append_left (by simpa using hi)]
    simp only [List.getElem?_modify, hpi, hqi, if_false]
    cases t.nodes[i]? <;> rfl

/-- The number of siblings is at most the number of nodes. -/
theorem TRep.width_le {g : Bool} {t : Tree α} {cur : Forest (Lab α)} {st : Stack α} {count : Nat}
    (h : TRep g t cur st count) : cur.ids.length ≤ t.nodes.length := by
  have := h.ids.length_eq
  rw [h.len]; simp at this; omega

/-- `close_at` around the siblings from `y` on. -/
theorem TRep.wrap {g g' : Bool} {fl : Flavor} {b : Builder α} {cells : Cells} {c : Nat} {d : α}
    {explicit : Option Span} {pre : Forest (Lab α)} {y : Lab α} {ky r : Forest (Lab α)}
    {st : Stack α} {count : Nat}
    (h : TRep g b.tree (pre ++ .cons y ky r) st count) (hpar : b.parent = parOf st)
    (hc : count < 2 ^ fl.width - 1) (hcell : cells[c]? = some ⟨y.id, parOf st⟩)
    (hg : g' = true → g = true ∧ r = .nil ∧ st ≠ []) :
    ∃ T : Tree α,
      b.closeAtCore fl cells c d explicit =
        (cells.set c ⟨count, parOf st⟩, { b with tree := T, sibling := some count }, .ok count) ∧
      T.indexes = b.tree.indexes ∧ T.span = b.tree.span ∧
      TRep g' T (pre ++ single
        ⟨count, d, explicit.getD (Nest.stretch (.cons y ky r))⟩ (.cons y ky r)) st (count + 1) := by
  have nd := h.nodup
  have hlt : ∀ {i}, i ∈ (pre ++ Forest.cons y ky r).ids ++ stackIds st → i < count := h.lt
  obtain ⟨hs1, hs2⟩ := Seg_append.1 h.seg
  have hs2' := hs2
  obtain ⟨⟨ly, hly, hy⟩, hk, hr⟩ := hs2'
  simp only [ids_append, List.append_assoc] at nd
  obtain ⟨ndp, nds, ndps⟩ := List.nodup_append.1 nd
  rw [List.nodup_append] at nds
  obtain ⟨ndc, ndst, ndcst⟩ := nds
  -- distinctness facts
  have pre_suf : ∀ i ∈ pre.ids, i ∉ (Forest.cons y ky r).ids := fun i hi hj =>
    ndps i hi i (List.mem_append_left _ hj) rfl
  have pre_st : ∀ i ∈ pre.ids, i ∉ stackIds st := fun i hi hj =>
    ndps i hi i (List.mem_append_right _ hj) rfl
  have suf_st : ∀ i ∈ (Forest.cons y ky r).ids, i ∉ stackIds st := fun i hi hj =>
    ndcst i hi i hj rfl
  have ndc' := ndc
  rw [ids_cons, List.nodup_cons, List.mem_append, List.nodup_append] at ndc'
  obtain ⟨y_nkr, _, _, k_r⟩ := ndc'
  have hw : (Forest.cons y ky r).tops.length ≤ b.tree.nodes.length := by
    have h1 := h.width_le
    have h2 := (tops_sublist (Forest.cons y ky r)).length_le
    simp only [ids_append, List.length_append] at h1
    have : (Forest.cons y ky r).ids.length = (Forest.cons y ky r).preorder.length := by
      simp [Forest.ids]
    omega
  obtain ⟨nodes2, e1, e2, e3, e4, e5⟩ := reparent_spec count hs2 hy ndc hw
  -- parent and previous sibling are not among the wrapped nodes, and differ
  have par_lt : ∀ i, parOf st = some i → i < count := fun i hi =>
    hlt (List.mem_append_right _ (parOf_mem hi))
  have par_n2 : ∀ i, parOf st = some i → i ∉ (Forest.cons y ky r).ids := fun i hi hm =>
    suf_st i hm (parOf_mem hi)
  have prev_lt : ∀ i, pre.lastId = some i → i < count := fun i hi =>
    hlt (List.mem_append_left _ (by simp [lastId_mem hi]))
  have prev_n2 : ∀ i, pre.lastId = some i → i ∉ (Forest.cons y ky r).ids := fun i hi =>
    pre_suf i (lastId_mem hi)
  have par_prev : ∀ i, parOf st = some i → pre.lastId ≠ some i := fun i hi hp =>
    pre_st i (lastId_mem hp) (parOf_mem hi)
  have n2_same : ∀ i, i ∉ (Forest.cons y ky r).topIds → nodes2[i]? = b.tree.nodes[i]? := by
    intro i hi
    simp only [topIds_cons, List.mem_cons, not_or] at hi
    exact e5 i hi.1 hi.2
  unfold Builder.closeAtCore
  rw [hcell]
  simp only [hpar, ne_eq, not_true_eq_false, if_false]
  simp only [Tree.len, h.len]
  rw [ptrNew_eq, if_pos hc]
  simp only [hy, e1]
  have len2 : ({ b.tree with nodes := nodes2 } : Tree α).nodes.length = count := by
    show nodes2.length = count
    rw [e2, h.len]
  have hrl := relink_spec (t := { b.tree with nodes := nodes2 }) (id := y.id)
    (parent := parOf st) (prev := pre.lastId)
    (new := mkLinks ⟨count, d, explicit.getD (Nest.stretch (.cons y ky r))⟩ (parOf st) pre.lastId
      none (some y.id) (some (((Forest.cons y ky r).lastId).getD 0)))
    (by rw [len2]; exact par_lt) (by rw [len2]; exact prev_lt) par_prev
  rw [len2] at hrl
  dsimp only at hrl
  obtain ⟨r1, r2, r3, r4, r5, r6, r7, r8, r9⟩ := hrl
  refine ⟨Tree.relink { b.tree with nodes := nodes2 } y.id count (parOf st) pre.lastId
    (mkLinks ⟨count, d, explicit.getD (Nest.stretch (.cons y ky r))⟩ (parOf st) pre.lastId
      none (some y.id) (some (((Forest.cons y ky r).lastId).getD 0))), ?_, r2, r3, ?_⟩
  · simp only [mkLinks, Option.or_none]
  generalize Tree.relink { b.tree with nodes := nodes2 } y.id count (parOf st) pre.lastId
    (mkLinks ⟨count, d, explicit.getD (Nest.stretch (.cons y ky r))⟩ (parOf st) pre.lastId
      none (some y.id) (some (((Forest.cons y ky r).lastId).getD 0))) = T at *
  -- nodes outside of the touched ones
  have same : ∀ i, i < count → i ∉ (Forest.cons y ky r).topIds → parOf st ≠ some i →
      pre.lastId ≠ some i → T.nodes[i]? = b.tree.nodes[i]? := by
    intro i h1 h2 h3 h4
    rw [r7 i h1 h3 h4]; exact n2_same i h2
  have not_top : ∀ i, i ∉ (Forest.cons y ky r).ids → i ∉ (Forest.cons y ky r).topIds :=
    fun i hi hm => hi (mem_ids_of_mem_topIds hm)
  -- nodes of the wrapped stretch are neither the parent nor the previous sibling
  have suf : ∀ i ∈ (Forest.cons y ky r).ids, T.nodes[i]? = nodes2[i]? := by
    intro i hi
    refine r7 i (hlt (List.mem_append_left _ (by rw [ids_append]; exact List.mem_append_right _ hi)))
      ?_ ?_
    · intro hp; exact par_n2 i hp hi
    · intro hp; exact prev_n2 i hp hi
  refine ⟨?_, ?_, ?_, r1⟩
  · rw [Seg_append]
    refine ⟨?_, ⟨some (((Forest.cons y ky r).lastId).getD 0), ?_, ?_⟩, ?_, trivial⟩
    · refine (hs1.mono (fun h => (hg h).1)).setNext ndp ?_ ?_
      · intro i hi hne
        refine same i (hlt (List.mem_append_left _ (by simp [hi]))) (not_top i (pre_suf i hi)) ?_ ?_
        · intro hp; exact pre_st i hi (parOf_mem hp)
        · exact fun hp => hne hp.symm
      · intro i hi
        rw [r6 i hi]
        show (nodes2[i]?).map _ = _
        rw [n2_same i (not_top i (prev_n2 i hi))]; rfl
    · obtain ⟨j, hj⟩ := lastId_isSome (F := Forest.cons y ky r) (by simp)
      rw [hj]
      show LastRel g' (some count) (some j) _
      rw [← hj]
      refine LastRel.exact ?_
      have hw : (Forest.cons y ky r).wrappedBy count = true := by
        simp only [wrappedBy, decide_eq_true_eq]
        exact hlt (List.mem_append_left _ (by simp [ids_append]))
      show (if _ then _ else _) = _
      rw [if_pos hw]; rfl
    · rw [r4]; simp
    · refine ⟨⟨ly, ?_, ?_⟩, ?_, ?_⟩
      · exact hly.mono (fun h => (hg h).1)
      · rw [suf _ (by simp), e3]
      · have : Seg g T.nodes ky (some y.id) none none := by
          refine hk.congr fun i hi => ?_
          rw [suf i (by simp [hi])]
          refine e5 i ?_ ?_
          · rintro rfl; exact y_nkr (Or.inl hi)
          · intro hm; exact k_r i hi i (mem_ids_of_mem_topIds hm) rfl
        exact this.mono (fun h => (hg h).1)
      · have : Seg g T.nodes r (some count) (some y.id) none := by
          refine hr.setParent ?_ ?_ ?_
          · rw [ids_cons, List.nodup_cons, List.nodup_append] at ndc; exact ndc.2.2.1
          · intro i hi hne
            rw [suf i (by simp [hi])]
            refine e5 i ?_ hne
            rintro rfl; exact y_nkr (Or.inr hi)
          · intro i hi
            rw [suf i (by simp [mem_ids_of_mem_topIds hi])]
            exact e4 i hi
        exact this.mono (fun h => (hg h).1)
  · have hh : (pre ++ single (⟨count, d, explicit.getD (Nest.stretch (.cons y ky r))⟩ : Lab α)
        (.cons y ky r)).headId = pre.headId.or (some count) := by rw [headId_append]; rfl
    have hll : (pre ++ single (⟨count, d, explicit.getD (Nest.stretch (.cons y ky r))⟩ : Lab α)
        (.cons y ky r)).lastId = some count := by rw [lastId_append]; rfl
    have hspine : (pre ++ single (⟨count, d, explicit.getD (Nest.stretch (.cons y ky r))⟩ : Lab α)
        (.cons y ky r)).spine = ⟨count, d, explicit.getD (Nest.stretch (.cons y ky r))⟩ ::
          (Forest.cons y ky r).spine := by
      rw [spine_append _ _ (by simp)]; rfl
    have hne : (pre ++ single (⟨count, d, explicit.getD (Nest.stretch (.cons y ky r))⟩ : Lab α)
        (.cons y ky r)) ≠ Forest.nil := by
      intro he; rw [he] at hll; simp at hll
    have hcur : (pre ++ Forest.cons y ky r) ≠ Forest.nil := by
      intro he
      have : (pre ++ Forest.cons y ky r).lastId = none := by rw [he]; rfl
      rw [lastId_append] at this
      obtain ⟨j, hj⟩ := lastId_isSome (F := Forest.cons y ky r) (by simp)
      rw [hj] at this; simp at this
    have hheads : ∀ f : Option Nat, f = (pre ++ Forest.cons y ky r).headId →
        (if f = some y.id then some count else f) = pre.headId.or (some count) := by
      rintro f rfl
      rw [headId_append]
      cases hph : pre.headId with
      | none => simp
      | some i =>
        have : i ≠ y.id := by
          rintro rfl; exact pre_suf _ (headId_mem hph) (by simp)
        simp [this]
    have hw : (Forest.cons y ky r).wrappedBy count = true := by
      simp only [wrappedBy, decide_eq_true_eq]
      exact hlt (List.mem_append_left _ (by simp [ids_append]))
    have hlasts : ∀ (p : Nat) (l : Option Nat), p < count →
        (∀ j, (pre ++ Forest.cons y ky r).headId = some j → p < j) →
        LastRel g (some p) l (pre ++ .cons y ky r) →
        LastRel false (some p) (if l = some y.id then some count else l)
          (pre ++ single (⟨count, d, explicit.getD (Nest.stretch (.cons y ky r))⟩ : Lab α)
            (.cons y ky r)) := by
      intro p l hp1 hp2 hl
      refine ⟨fun he => absurd he hne, fun _ => ?_, by simp, ?_⟩
      case refine_2 =>
        have e1 := hl.2.2.2
        simp only [lastLink, wrappedBy_false hp2] at e1
        have hp3 : ∀ j, (pre ++ single (⟨count, d, explicit.getD (Nest.stretch (.cons y ky r))⟩ : Lab α)
            (.cons y ky r)).headId = some j → p < j := by
          intro j hj
          rw [hh] at hj
          cases hph : pre.headId with
          | none => rw [hph] at hj; simp at hj; omega
          | some i =>
            rw [hph] at hj
            simp at hj
            rw [← hj]
            exact hp2 i (by rw [headId_append, hph]; rfl)
        simp only [lastLink, wrappedBy_false hp3]
        rw [heldLast_append _ _ (by simp)] at e1 ⊢
        rw [heldLast_single, if_pos hw]
        simp only [Bool.false_eq_true, if_false, true_and] at e1 ⊢
        rw [← e1]; rfl
      obtain ⟨i, hi, hm⟩ := hl.2.1 hcur
      rw [spine_append _ _ (by simp)] at hm
      by_cases hly : l = some y.id
      · exact ⟨count, by simp [hly], by rw [hspine]; simp⟩
      · refine ⟨i, by rw [if_neg hly]; exact hi, by rw [hspine]; exact List.mem_cons_of_mem _ hm⟩
    rw [hh]
    cases st with
    | nil =>
      obtain ⟨c1, c2⟩ := h.ctx
      refine ⟨by rw [r8]; exact hheads _ c1, ?_⟩
      cases g' with
      | true => exact absurd rfl (hg rfl).2.2
      | false =>
        rw [r9]
        show LastRel false none b.tree.last _
        refine ⟨fun he => absurd he hne, fun _ => ?_, by simp, ?_⟩
        case refine_2 =>
          have e1 : b.tree.last = heldLast true _ := c2.2.2.2
          show _ = heldLast true _
          rw [heldLast_append _ _ (by simp)] at e1 ⊢
          rw [heldLast_single, if_pos hw, if_neg (by simp)]
          exact e1
        obtain ⟨i, hi, hm⟩ := c2.2.1 hcur
        rw [spine_append _ _ (by simp)] at hm
        exact ⟨i, hi, by rw [hspine]; exact List.mem_cons_of_mem _ hm⟩
    | cons p st =>
      obtain ⟨x, left⟩ := p
      obtain ⟨i, hfi, hfm⟩ := h.ctx.first_mem
      obtain ⟨⟨l, ⟨hl, hlo⟩, hx⟩, hs, hst⟩ := h.ctx
      have htf : T.first = b.tree.first := by
        rw [r8]
        have : b.tree.first ≠ some y.id := by
          rw [hfi]; intro he; simp only [Option.some.injEq] at he
          exact suf_st y.id (by simp) (he ▸ hfm)
        exact if_neg this
      have hparx : parOf ((x, left) :: st) = some x.id := rfl
      have other : ∀ i ∈ left.ids ++ stackIds st, T.nodes[i]? = b.tree.nodes[i]? := by
        intro i hi
        have hi' : i ∈ stackIds ((x, left) :: st) := by
          simp only [stackIds]; exact List.mem_cons_of_mem _ hi
        refine same i (hlt (List.mem_append_right _ hi')) ?_ ?_ ?_
        · exact not_top i (fun hm => suf_st i hm hi')
        · rw [hparx]; intro he; simp only [Option.some.injEq] at he
          simp only [stackIds, List.nodup_cons] at ndst
          exact ndst.1 (he ▸ hi)
        · intro he; exact pre_st i (lastId_mem he) hi'
      refine ⟨⟨if l = some y.id then some count else l, ⟨?_, ?_⟩, ?_⟩, ?_, ?_⟩
      · have h1 := hlasts x.id l (par_lt _ hparx) hlo hl
        refine ⟨h1.1, h1.2.1, fun hg' => ?_, h1.2.2.2⟩
        obtain ⟨hg1, hr1, _⟩ := hg hg'
        have : l = some y.id := by
          rw [hl.2.2.1 hg1, lastId_append, hr1]; rfl
        rw [hll, if_pos this]
      · intro j hj
        cases hph : pre.headId with
        | none =>
          rw [hph] at hj
          simp only [Option.none_or, Option.some.injEq] at hj
          rw [← hj]; exact par_lt _ hparx
        | some i =>
          rw [hph] at hj
          simp only [Option.some_or, Option.some.injEq] at hj
          rw [← hj]
          exact hlo i (by rw [headId_append, hph]; rfl)
      · rw [r5 x.id hparx]
        show (nodes2[x.id]?).map _ = _
        rw [n2_same x.id (not_top _ (par_n2 _ hparx)), hx]
        simp only [Option.map_some, mkLinks, Option.some.injEq, Links.mk.injEq, true_and, and_true]
        exact hheads _ rfl
      · exact (hs.congr fun i hi => other i (List.mem_append_left _ hi)).mono (fun h => (hg h).1)
      · rw [htf, r9]
        exact (hst.congr (fun _ h => h) fun i hi => other i (List.mem_append_right _ hi)).mono
          (fun h => (hg h).1)
  · refine List.Perm.trans ?_ (range_perm_snoc h.ids)
    simp only [ids_append, List.append_assoc]
    rw [show (single (⟨count, d, explicit.getD (Nest.stretch (.cons y ky r))⟩ : Lab α)
        (.cons y ky r)).ids = count :: (Forest.cons y ky r).ids by
      rw [single, ids_cons, ids_nil, List.append_nil]]
    exact List.perm_middle

end Syntree
