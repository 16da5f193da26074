import Verif.Proof.DeepWrap

/-! `close_at` around siblings anywhere. -/

namespace Syntree

variable {α : Type}

open Forest

theorem fromId_sublist {i : Nat} {F : Forest (Lab α)} : (F.fromId i).ids.Sublist F.ids := by
  induction F with
  | nil => exact List.Sublist.refl _
  | cons x k r ihk ihr =>
    rw [fromId]
    split
    · exact List.Sublist.refl _
    · rw [ids_cons]
      split
      · exact (ihk.trans (List.sublist_append_left _ _)).cons _
      · exact (ihr.trans (List.sublist_append_right _ _)).cons _

theorem fromId_disj {i : Nat} {F : Forest (Lab α)} {par prev : Option Nat} (nd : F.ids.Nodup)
    (hi : i ∈ F.ids)
    (hpar : ∀ j, par = some j → j ∉ F.ids) (hprev : ∀ j, prev = some j → j ∉ F.ids)
    (hpp : ∀ j, par = some j → prev ≠ some j) :
    (∀ j, F.parentOf i par = some j → j ∉ (F.fromId i).ids) ∧
    (∀ j, F.prevOf i prev = some j → j ∉ (F.fromId i).ids) ∧
    (∀ j, F.parentOf i par = some j → F.prevOf i prev ≠ some j) := by
  induction F generalizing par prev with
  | nil => simp at hi
  | cons x k r ihk ihr =>
    obtain ⟨n1, n2, n3, n4, n5⟩ := nodup_parts nd
    rw [parentOf, prevOf, fromId]
    by_cases hxi : x.id = i
    · simp only [if_pos hxi]; exact ⟨hpar, hprev, hpp⟩
    · simp only [if_neg hxi]
      by_cases hki : i ∈ k.ids
      · simp only [if_pos hki]
        exact ihk n3 hki (fun j hj => by simp at hj; exact hj ▸ n1) (by simp) (by simp)
      · simp only [if_neg hki]
        have hri : i ∈ r.ids := by
          simp only [ids_cons, List.mem_cons, List.mem_append] at hi
          rcases hi with h | h | h
          · exact absurd h.symm hxi
          · exact absurd h hki
          · exact h
        refine ihr n4 hri (fun j hj hm => hpar j hj (by simp [hm]))
          (fun j hj => by simp at hj; exact hj ▸ n2) ?_
        intro j hj he
        simp only [Option.some.injEq] at he
        exact hpar j hj (by simp [he])

theorem RepCtxL.first_mem {nodes : List (Links α)} {f l : Option Nat}
    {x : Lab α} {left : Forest (Lab α)} {st : Stack α} {h : Option Nat} {L : Option Nat → Prop}
    (hr : RepCtxL nodes f l ((x, left) :: st) h L) :
    ∃ i, f = some i ∧ i ∈ stackIds ((x, left) :: st) := by
  induction st generalizing x left h L with
  | nil =>
    obtain ⟨_, _, h1, _⟩ := hr
    rw [h1]
    cases hl : left.headId with
    | none => exact ⟨x.id, rfl, by simp [stackIds]⟩
    | some i => exact ⟨i, rfl, by simp [stackIds, headId_mem hl]⟩
  | cons p st ih =>
    obtain ⟨y, l'⟩ := p
    obtain ⟨_, _, h1⟩ := hr
    obtain ⟨i, h2, h3⟩ := ih h1
    exact ⟨i, h2, by rw [stackIds]; simp [h3]⟩

/-- `close_at` around the node `i`, wherever it is below the innermost open node, and the siblings
after it. -/
theorem TRepL.wrapAt {fl : Flavor} {b : Builder α} {cells : Cells} {c i : Nat} {d : α}
    {explicit : Option Span} {cur : Forest (Lab α)} {st : Stack α} {count : Nat}
    (h : TRepL b.tree cur st count) (hpar : b.parent = parOf st)
    (hc : count < 2 ^ fl.width - 1) (hcell : cells[c]? = some ⟨i, parOf st⟩) (hi : i ∈ cur.ids) :
    ∃ T : Tree α,
      b.closeAtCore fl cells c d explicit =
        (cells.set c ⟨count, cur.parentOf i (parOf st)⟩, { b with tree := T, sibling := some count },
          .ok count) ∧
      T.indexes = b.tree.indexes ∧ T.span = b.tree.span ∧
      TRepL T (cur.wrapFrom i ⟨count, d, explicit.getD (Nest.stretch (cur.fromId i))⟩) st
        (count + 1) := by
  have nd := h.nodup
  have hlt : ∀ {j}, j ∈ cur.ids ++ stackIds st → j < count := h.lt
  obtain ⟨nd1, nd2, nd3⟩ := List.nodup_append.1 nd
  have par_st : ∀ j, parOf st = some j → j ∉ cur.ids :=
    fun j hj hm => nd3 j hm j (parOf_mem hj) rfl
  obtain ⟨y, ky, r, ef, hyi, hs2⟩ := h.seg.fromId hi (fun _ => rfl)
  obtain ⟨dj1, dj2, dj3⟩ := fromId_disj (par := parOf st) (prev := none) nd1 hi par_st (by simp) (by simp)
  have hsub := fromId_sublist (i := i) (F := cur)
  have ndc : (cur.fromId i).ids.Nodup := nd1.sublist hsub
  have hmem_p : ∀ j, cur.parentOf i (parOf st) = some j → parOf st = some j ∨ j ∈ cur.ids := by
    intro j hj
    rcases parentOf_mem (par := parOf st) hi with h | ⟨j', h1, h2⟩
    · exact Or.inl (h ▸ hj)
    · rw [h2] at hj; simp only [Option.some.injEq] at hj; exact Or.inr (hj ▸ h1)
  have hmem_q : ∀ j, cur.prevOf i none = some j → j ∈ cur.ids := by
    intro j hj
    by_cases hh : cur.headId = some i
    · rw [prevOf_head hh] at hj; simp at hj
    · rcases prevOf_mem (prev := none) hi hh with h | ⟨j', h1, h2⟩
      · rw [h] at hj; simp at hj
      · rw [h2] at hj; simp only [Option.some.injEq] at hj; exact hj ▸ h1
  have p_lt : ∀ j, cur.parentOf i (parOf st) = some j → j < count := by
    intro j hj
    rcases hmem_p j hj with h | h
    · exact hlt (List.mem_append_right _ (parOf_mem h))
    · exact hlt (List.mem_append_left _ h)
  have q_lt : ∀ j, cur.prevOf i none = some j → j < count :=
    fun j hj => hlt (List.mem_append_left _ (hmem_q j hj))
  have hw : (Forest.cons y ky r).tops.length ≤ b.tree.nodes.length := by
    have h1 := h.width_le
    have h2 := (tops_sublist (Forest.cons y ky r)).length_le
    have h3 := hsub.length_le
    rw [ef] at h3
    have : (Forest.cons y ky r).ids.length = (Forest.cons y ky r).preorder.length := by
      simp [Forest.ids]
    omega
  have hrun_lt : ∀ j ∈ (cur.fromId i).ids, j < count :=
    fun j hj => hlt (List.mem_append_left _ (fromId_sub hj))
  rw [ef] at ndc dj1 dj2 hrun_lt
  generalize hpe : cur.parentOf i (parOf st) = p at *
  generalize hqe : cur.prevOf i none = q at *
  obtain ⟨⟨ly, hly, hy⟩, _, _⟩ := id hs2
  obtain ⟨nodes2, e1, e2, e3, e4, e5⟩ := reparent_specL count hs2 hy ndc hw
  have n2_same : ∀ j, j ∉ (Forest.cons y ky r).topIds → nodes2[j]? = b.tree.nodes[j]? := by
    intro j hj
    simp only [topIds_cons, List.mem_cons, not_or] at hj
    exact e5 j hj.1 hj.2
  unfold Builder.closeAtCore
  rw [hcell]
  simp only [hpar, ne_eq, not_true_eq_false, if_false]
  simp only [Tree.len, h.len]
  rw [ptrNew_eq, if_pos hc]
  rw [← hyi]
  simp only [hy, e1]
  have len2 : ({ b.tree with nodes := nodes2 } : Tree α).nodes.length = count := by
    show nodes2.length = count
    rw [e2, h.len]
  generalize hlabe : (⟨count, d, explicit.getD (Nest.stretch (.cons y ky r))⟩ : Lab α) = lab
  have hlab : lab.id = count := by rw [← hlabe]
  have hrl := relink_spec (t := { b.tree with nodes := nodes2 }) (id := y.id)
    (parent := p) (prev := q)
    (new := mkLinks lab p q none (some y.id) (some (((Forest.cons y ky r).lastId).getD 0)))
    (by rw [len2]; exact p_lt) (by rw [len2]; exact q_lt) dj3
  rw [len2] at hrl
  dsimp only at hrl
  obtain ⟨r1, r2, r3, r4, r5, r6, r7, r8, r9⟩ := hrl
  refine ⟨Tree.relink { b.tree with nodes := nodes2 } y.id count p q
    (mkLinks lab p q none (some y.id) (some (((Forest.cons y ky r).lastId).getD 0))), ?_, r2, r3, ?_⟩
  · rw [← hlabe]; simp only [mkLinks]
  generalize Tree.relink { b.tree with nodes := nodes2 } y.id count p q
    (mkLinks lab p q none (some y.id) (some (((Forest.cons y ky r).lastId).getD 0))) = T at *
  have top_ids : ∀ j ∈ (Forest.cons y ky r).topIds, j ∈ (Forest.cons y ky r).ids :=
    fun j hj => mem_ids_of_mem_topIds hj
  have suf : ∀ j ∈ (Forest.cons y ky r).topIds, T.nodes[j]? = nodes2[j]? := by
    intro j hj
    exact r7 j (hrun_lt j (top_ids j hj)) (fun hp => dj1 j hp (top_ids j hj))
      (fun hp => dj2 j hp (top_ids j hj))
  have hlaston : LastOn (some (((Forest.cons y ky r).lastId).getD 0)) (Forest.cons y ky r) := by
    obtain ⟨j, hj⟩ := lastId_isSome (F := Forest.cons y ky r) (by simp)
    rw [hj]
    have := LastOn.exact (k := Forest.cons y ky r)
    rw [hj] at this; exact this
  have hrw : Rewired b.tree.nodes T.nodes y.id (cur.fromId y.id) (cur.parentOf y.id (parOf st))
      (cur.prevOf y.id none) lab := by
    rw [hyi, ef, hpe, hqe, ← hyi]
    refine ⟨⟨_, hlaston, by rw [hlab, r4]⟩, ?_, ?_, ?_, ?_, ?_⟩
    · rw [suf _ (by simp), e3, hy, hlab]; rfl
    · intro j hj hne
      rw [suf j hj, hlab]
      exact e4 j (by simpa [hne] using hj)
    · intro j hj
      rw [r5 j hj, hlab]
      show (nodes2[j]?).map _ = _
      rw [n2_same j (fun hm => dj1 j hj (top_ids j hm))]
    · intro j hj
      rw [r6 j hj, hlab]
      show (nodes2[j]?).map _ = _
      rw [n2_same j (fun hm => dj2 j hj (top_ids j hm))]
    · intro j hne hnr hp hq
      rw [hlab] at hne
      by_cases hjc : j < count
      · rw [r7 j hjc hp hq]; exact n2_same j hnr
      · rw [List.getElem?_eq_none_iff.2 (by rw [r1]; omega),
          List.getElem?_eq_none_iff.2 (by rw [h.len]; omega)]
  have hnew : lab.id ∉ cur.ids := by
    rw [hlab]; intro hm
    exact Nat.lt_irrefl _ (hlt (List.mem_append_left _ hm))
  have hil : y.id ∈ cur.ids := hyi ▸ hi
  -- nodes outside of the wrapped ones
  have out : ∀ j ∈ stackIds st, parOf st ≠ some j → T.nodes[j]? = b.tree.nodes[j]? := by
    intro j hj hne
    have hjc : j ∉ cur.ids := fun hm => nd3 j hm j hj rfl
    refine hrw.other j ?_ ?_ ?_ ?_
    · rw [hlab]; exact Nat.ne_of_lt (hlt (List.mem_append_right _ hj))
    · exact fun hm => hjc (fromId_sub (mem_ids_of_mem_topIds hm))
    · rw [hyi, hpe]; intro he
      rcases hmem_p j he with h | h
      · exact hne h
      · exact hjc h
    · rw [hyi, hqe]; intro he; exact hjc (hmem_q j he)
  have hlast : ∀ l, LastOn l cur →
      LastOn (if y.id ∈ cur.topIds then if l = some y.id then some lab.id else l else l)
        (cur.wrapFrom y.id lab) := by
    intro l hl
    have hcn : cur ≠ .nil := by intro he; rw [he] at hil; simp at hil
    refine ⟨fun he => absurd he (wrapFrom_ne_nil hcn), fun _ => ?_⟩
    obtain ⟨j, hj, hm⟩ := hl.2 hcn
    by_cases ht : y.id ∈ cur.topIds
    · rw [if_pos ht]
      by_cases hly : l = some y.id
      · rw [if_pos hly]
        rw [hly] at hj; simp only [Option.some.injEq] at hj
        exact ⟨_, rfl, spine_new nd1 (hj ▸ hm)⟩
      · rw [if_neg hly]; exact ⟨j, hj, spine_wrapFrom hm⟩
    · rw [if_neg ht]; exact ⟨j, hj, spine_wrapFrom hm⟩
  refine ⟨?_, ?_, ?_, r1⟩
  · have := h.seg.wrapFrom nd1 hil (fun _ => rfl) par_st (by simp) hnew hrw
    rw [hyi, ef, hlabe, ← hyi]; exact this
  · rw [hyi, ef, hlabe, ← hyi, headId_wrapFrom]
    cases st with
    | nil =>
      obtain ⟨c1, c2⟩ := h.ctx
      refine ⟨?_, ?_⟩
      · rw [r8, hlab]
        show (if b.tree.first = _ then _ else b.tree.first) = _
        rw [c1]
      · -- `last` of the tree is never updated
        rw [r9]
        obtain ⟨a1, a2⟩ := c2
        have hcn : cur ≠ .nil := by intro he; rw [he] at hil; simp at hil
        refine ⟨fun he => absurd he (wrapFrom_ne_nil hcn), fun _ => ?_⟩
        obtain ⟨j, hj, hm⟩ := a2 hcn
        exact ⟨j, hj, spine_wrapFrom hm⟩
    | cons w st' =>
      obtain ⟨x, left⟩ := w
      obtain ⟨fi, hfi, hfm⟩ := h.ctx.first_mem
      obtain ⟨⟨l, hl, hx⟩, hs, hst⟩ := h.ctx
      simp only [stackIds, List.nodup_cons] at nd2
      have oth : ∀ j ∈ left.ids ++ stackIds st', T.nodes[j]? = b.tree.nodes[j]? := by
        intro j hj
        refine out j (by simp only [stackIds]; exact List.mem_cons_of_mem _ hj) ?_
        simp only [parOf, List.head?_cons, Option.map_some, ne_eq, Option.some.injEq]
        rintro rfl; exact nd2.1 hj
      have hfT : T.first = b.tree.first := by
        rw [r8]
        show (if b.tree.first = _ then _ else b.tree.first) = _
        rw [hfi, if_neg]
        simp only [Option.some.injEq]
        rintro rfl
        exact nd3 _ hil _ hfm rfl
      refine ⟨⟨_, hlast l hl, ?_⟩, hs.congr (fun j hj => oth j (List.mem_append_left _ hj)), ?_⟩
      · by_cases ht : y.id ∈ cur.topIds
        · have hpp : cur.parentOf y.id (parOf ((x, left) :: st')) = some x.id := by
            rw [parentOf_top nd1 ht]; rfl
          rw [if_pos ht, hrw.par x.id hpp, hx]; rfl
        · rw [if_neg ht]
          have hh : cur.headId ≠ some y.id := fun he => ht (headId_mem_topIds he)
          rw [if_neg hh]
          have hxc : x.id ∉ cur.ids := fun hm => nd3 _ hm _ (by simp [stackIds]) rfl
          rw [hrw.other x.id ?_ ?_ ?_ ?_, hx]
          · rw [hlab]; exact Nat.ne_of_lt (hlt (List.mem_append_right _ (by simp [stackIds])))
          · exact fun hm => hxc (fromId_sub (mem_ids_of_mem_topIds hm))
          · intro he
            obtain ⟨j, h1, h2⟩ := parentOf_deep (par := parOf ((x, left) :: st')) hil ht
            rw [h2] at he; simp only [Option.some.injEq] at he
            exact hxc (he ▸ h1)
          · rw [hyi, hqe]; intro he; exact hxc (hmem_q _ he)
      · rw [hfT, r9]
        exact hst.congr (fun _ h => h) (fun j hj => oth j (List.mem_append_right _ hj))
  · rw [hyi, ef, hlabe, ← hyi]
    have h1 := (ids_wrapFrom (new := lab) hil).append_right (stackIds st)
    rw [hlab] at h1
    exact h1.trans (range_perm_snoc h.ids)

end Syntree
