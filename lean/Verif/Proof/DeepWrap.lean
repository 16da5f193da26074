import Verif.Proof.SegL
import Verif.Spec.Loose

/-! Wrapping anywhere in a nested list. -/

namespace Syntree

variable {α : Type}

open Forest

theorem nodup_parts {x : Lab α} {k r : Forest (Lab α)} (nd : (Forest.cons x k r).ids.Nodup) :
    x.id ∉ k.ids ∧ x.id ∉ r.ids ∧ k.ids.Nodup ∧ r.ids.Nodup ∧ ∀ i ∈ k.ids, i ∉ r.ids := by
  rw [ids_cons, List.nodup_cons, List.mem_append, List.nodup_append] at nd
  obtain ⟨h1, h2, h3, h4⟩ := nd
  exact ⟨fun h => h1 (Or.inl h), fun h => h1 (Or.inr h), h2, h3,
    fun i hi hr => h4 i hi i hr rfl⟩

/-- The sibling before the element with the id `i`. -/
def Forest.prevOf (i : Nat) : Option Nat → Forest (Lab α) → Option Nat
  | _, .nil => none
  | prev, .cons x k r =>
    if x.id = i then prev
    else if i ∈ k.ids then k.prevOf i none else r.prevOf i (some x.id)

theorem fromId_sub {i j : Nat} {F : Forest (Lab α)} (h : j ∈ (F.fromId i).ids) : j ∈ F.ids := by
  induction F with
  | nil => exact h
  | cons x k r ihk ihr =>
    rw [fromId] at h
    split at h
    · exact h
    · split at h
      · simp [ihk h]
      · simp [ihr h]

theorem parentOf_top {i : Nat} {F : Forest (Lab α)} {par : Option Nat} (nd : F.ids.Nodup)
    (h : i ∈ F.topIds) : F.parentOf i par = par := by
  induction F with
  | nil => simp at h
  | cons x k r _ ihr =>
    obtain ⟨h1, h2, h3, h4, h5⟩ := nodup_parts nd
    rw [parentOf]
    split
    · rfl
    · rename_i hne
      have hr : i ∈ r.topIds := by
        simp only [topIds_cons, List.mem_cons] at h
        rcases h with h | h
        · exact absurd h.symm hne
        · exact h
      rw [if_neg (fun hk => h5 i hk (mem_ids_of_mem_topIds hr))]
      exact ihr h4 hr

theorem parentOf_mem {i : Nat} {F : Forest (Lab α)} {par : Option Nat}
    (hi : i ∈ F.ids) : F.parentOf i par = par ∨ ∃ j ∈ F.ids, F.parentOf i par = some j := by
  induction F generalizing par with
  | nil => simp at hi
  | cons x k r ihk ihr =>
    rw [parentOf]
    split
    · exact Or.inl rfl
    · rename_i hne
      split
      · rename_i hk
        rcases ihk (par := some x.id) hk with h | ⟨j, h1, h2⟩
        · exact Or.inr ⟨x.id, by simp, h⟩
        · exact Or.inr ⟨j, by simp [h1], h2⟩
      · rename_i hk
        have hr : i ∈ r.ids := by
          simp only [ids_cons, List.mem_cons, List.mem_append] at hi
          rcases hi with h | h | h
          · exact absurd h.symm hne
          · exact absurd h hk
          · exact h
        rcases ihr (par := par) hr with h | ⟨j, h1, h2⟩
        · exact Or.inl h
        · exact Or.inr ⟨j, by simp [h1], h2⟩

theorem parentOf_deep {i : Nat} {F : Forest (Lab α)} {par : Option Nat}
    (hi : i ∈ F.ids) (ht : i ∉ F.topIds) : ∃ j ∈ F.ids, F.parentOf i par = some j := by
  induction F generalizing par with
  | nil => simp at hi
  | cons x k r _ ihr =>
    simp only [topIds_cons, List.mem_cons, not_or] at ht
    rw [parentOf, if_neg (Ne.symm ht.1)]
    split
    · rename_i hk
      rcases parentOf_mem (par := some x.id) hk with h | ⟨j, h1, h2⟩
      · exact ⟨x.id, by simp, h⟩
      · exact ⟨j, by simp [h1], h2⟩
    · rename_i hk
      have hr : i ∈ r.ids := by
        simp only [ids_cons, List.mem_cons, List.mem_append] at hi
        rcases hi with h | h | h
        · exact absurd h ht.1
        · exact absurd h hk
        · exact h
      obtain ⟨j, h1, h2⟩ := ihr (par := par) hr ht.2
      exact ⟨j, by simp [h1], h2⟩

theorem prevOf_head {i : Nat} {F : Forest (Lab α)} {prev : Option Nat} (h : F.headId = some i) :
    F.prevOf i prev = prev := by
  cases F with
  | nil => simp at h
  | cons x k r =>
    simp only [headId_cons, Option.some.injEq] at h
    rw [prevOf, if_pos h]

theorem prevOf_mem {i : Nat} {F : Forest (Lab α)} {prev : Option Nat} (hi : i ∈ F.ids)
    (h : F.headId ≠ some i) : F.prevOf i prev = none ∨ ∃ j ∈ F.ids, F.prevOf i prev = some j := by
  induction F generalizing prev with
  | nil => simp at hi
  | cons x k r ihk ihr =>
    simp only [headId_cons, ne_eq, Option.some.injEq] at h
    rw [prevOf, if_neg h]
    split
    · rename_i hk
      by_cases hh : k.headId = some i
      · rw [prevOf_head hh]; exact Or.inl rfl
      · rcases ihk (prev := none) hk hh with h | ⟨j, h1, h2⟩
        · exact Or.inl h
        · exact Or.inr ⟨j, by simp [h1], h2⟩
    · rename_i hk
      have hr : i ∈ r.ids := by
        simp only [ids_cons, List.mem_cons, List.mem_append] at hi
        rcases hi with h' | h' | h'
        · exact absurd h'.symm h
        · exact absurd h' hk
        · exact h'
      by_cases hh : r.headId = some i
      · rw [prevOf_head hh]; exact Or.inr ⟨x.id, by simp, rfl⟩
      · rcases ihr (prev := some x.id) hr hh with h | ⟨j, h1, h2⟩
        · exact Or.inl h
        · exact Or.inr ⟨j, by simp [h1], h2⟩

theorem headId_wrapFrom {i : Nat} {new : Lab α} {F : Forest (Lab α)} :
    (F.wrapFrom i new).headId = if F.headId = some i then some new.id else F.headId := by
  cases F with
  | nil => simp [wrapFrom]
  | cons x k r =>
    rw [wrapFrom]
    split
    · rename_i h; simp [h]
    · rename_i h
      split <;> simp [h]

theorem wrapFrom_ne_nil {i : Nat} {new : Lab α} {F : Forest (Lab α)} (h : F ≠ .nil) :
    F.wrapFrom i new ≠ .nil := by
  intro he
  have := headId_wrapFrom (i := i) (new := new) (F := F)
  rw [he] at this
  cases F with
  | nil => exact h rfl
  | cons x k r =>
    by_cases hx : x.id = i
    · simp [hx] at this
    · simp [hx] at this

theorem spine_wrapFrom {i : Nat} {new : Lab α} {F : Forest (Lab α)} {j : Nat}
    (h : j ∈ F.spine.map (·.id)) : j ∈ (F.wrapFrom i new).spine.map (·.id) := by
  induction F with
  | nil => simp [spine] at h
  | cons x k r ihk ihr =>
    rw [wrapFrom]
    split
    · show j ∈ (new :: (Forest.cons x k r).spine).map (·.id)
      simp only [List.map_cons, List.mem_cons]; exact Or.inr h
    · split
      · cases r with
        | nil =>
          rw [spine] at h ⊢
          simp only [List.map_cons, List.mem_cons] at h ⊢
          rcases h with h | h
          · exact Or.inl h
          · exact Or.inr (ihk h)
        | cons y k' r' => exact h
      · cases r with
        | nil => exact h
        | cons y k' r' =>
          have hne := wrapFrom_ne_nil (i := i) (new := new) (F := Forest.cons y k' r') (by simp)
          have h1 := ihr h
          cases hw : (Forest.cons y k' r').wrapFrom i new with
          | nil => exact absurd hw hne
          | cons y2 k2 r2 => rw [hw] at h1; exact h1

/-- If the first wrapped node is on the right spine, so is the new one. -/
theorem spine_new {i : Nat} {new : Lab α} {F : Forest (Lab α)} (nd : F.ids.Nodup)
    (h : i ∈ F.spine.map (·.id)) : new.id ∈ (F.wrapFrom i new).spine.map (·.id) := by
  induction F with
  | nil => simp [spine] at h
  | cons x k r ihk ihr =>
    obtain ⟨n1, n2, n3, n4, n5⟩ := nodup_parts nd
    have mem : ∀ G : Forest (Lab α), ∀ j, j ∈ G.spine.map (·.id) → j ∈ G.ids := by
      intro G j hj
      obtain ⟨z, hz, rfl⟩ := List.mem_map.1 hj
      exact List.mem_map_of_mem (mem_preorder_of_spine hz)
    rw [wrapFrom]
    split
    · show new.id ∈ (new :: (Forest.cons x k r).spine).map (·.id)
      simp
    · rename_i hne
      cases r with
      | nil =>
        rw [spine] at h
        simp only [List.map_cons, List.mem_cons] at h
        rcases h with h | h
        · exact absurd h.symm hne
        · rw [if_pos (mem _ _ h), spine]
          simp only [List.map_cons, List.mem_cons]; exact Or.inr (ihk n3 h)
      | cons y k' r' =>
        have h1 : i ∈ (Forest.cons y k' r').spine.map (·.id) := h
        rw [if_neg (fun hk => n5 i hk (mem _ _ h1))]
        have h2 := ihr n4 h1
        have hne := wrapFrom_ne_nil (i := i) (new := new) (F := Forest.cons y k' r') (by simp)
        cases hw : (Forest.cons y k' r').wrapFrom i new with
        | nil => exact absurd hw hne
        | cons y2 k2 r2 => rw [hw] at h2; exact h2

theorem ids_wrapFrom {i : Nat} {new : Lab α} {F : Forest (Lab α)} (hi : i ∈ F.ids) :
    (F.wrapFrom i new).ids.Perm (new.id :: F.ids) := by
  induction F with
  | nil => simp at hi
  | cons x k r ihk ihr =>
    rw [wrapFrom]
    split
    · rw [single, ids_cons, ids_nil, List.append_nil]
    · rename_i hne
      split
      · rename_i hk
        rw [ids_cons, ids_cons]
        exact (((ihk hk).append_right _).cons _).trans (List.Perm.swap _ _ _)
      · rename_i hk
        have hr : i ∈ r.ids := by
          simp only [ids_cons, List.mem_cons, List.mem_append] at hi
          rcases hi with h | h | h
          · exact absurd h.symm hne
          · exact absurd h hk
          · exact h
        rw [ids_cons, ids_cons]
        refine (((ihr hr).append_left _).cons _).trans ?_
        exact (List.perm_middle.cons _).trans (List.Perm.swap _ _ _)

/-- The run that gets wrapped. -/
theorem SegL.fromId {nodes : List (Links α)} {F : Forest (Lab α)} {par prev nxt : Option Nat} {i : Nat}
    (h : SegL nodes F par prev nxt) (hi : i ∈ F.ids) (ht : i ∈ F.topIds → nxt = none) :
    ∃ y ky r, F.fromId i = .cons y ky r ∧ y.id = i ∧
      SegL nodes (.cons y ky r) (F.parentOf i par) (F.prevOf i prev) none := by
  induction F generalizing par prev nxt with
  | nil => simp at hi
  | cons x k r ihk ihr =>
    rw [Forest.fromId, parentOf, prevOf]
    by_cases hx : x.id = i
    · simp only [if_pos hx]
      refine ⟨x, k, r, rfl, hx, ?_⟩
      rw [ht (by simp [hx])] at h
      exact h
    · simp only [if_neg hx]
      by_cases hk : i ∈ k.ids
      · simp only [if_pos hk]
        exact ihk h.2.1 hk (fun _ => rfl)
      · simp only [if_neg hk]
        have hr : i ∈ r.ids := by
          simp only [ids_cons, List.mem_cons, List.mem_append] at hi
          rcases hi with h | h | h
          · exact absurd h.symm hx
          · exact absurd h hk
          · exact h
        exact ihr h.2.2 hr (fun h' => ht (by simp [h']))

/-- `nodes'` is what becomes of `nodes` if the run of siblings `run` below `p` and after `q` is put
into the new node `new`. -/
structure Rewired (nodes nodes' : List (Links α)) (i : Nat) (run : Forest (Lab α))
    (p q : Option Nat) (new : Lab α) : Prop where
  made : ∃ l, LastOn l run ∧ nodes'[new.id]? = some (mkLinks new p q none (some i) l)
  first : nodes'[i]? = (nodes[i]?).map (fun l => { l with parent := some new.id, prev := none })
  rest : ∀ j ∈ run.topIds, j ≠ i →
    nodes'[j]? = (nodes[j]?).map (fun l => { l with parent := some new.id })
  par : ∀ j, p = some j → nodes'[j]? = (nodes[j]?).map (fun l =>
    { l with
      first := if l.first = some i then some new.id else l.first
      last := if l.last = some i then some new.id else l.last })
  prev : ∀ j, q = some j → nodes'[j]? = (nodes[j]?).map (fun l => { l with next := some new.id })
  other : ∀ j, j ≠ new.id → j ∉ run.topIds → p ≠ some j → q ≠ some j → nodes'[j]? = nodes[j]?

theorem SegL.wrapFrom {nodes nodes' : List (Links α)} {F : Forest (Lab α)}
    {par prev nxt : Option Nat} {i : Nat} {new : Lab α} (h : SegL nodes F par prev nxt)
    (nd : F.ids.Nodup) (hi : i ∈ F.ids) (ht : i ∈ F.topIds → nxt = none)
    (hpar : ∀ j, par = some j → j ∉ F.ids) (hprev : ∀ j, prev = some j → j ∉ F.ids)
    (hnew : new.id ∉ F.ids)
    (hw : Rewired nodes nodes' i (F.fromId i) (F.parentOf i par) (F.prevOf i prev) new) :
    SegL nodes' (F.wrapFrom i new) par prev nxt := by
  induction F generalizing par prev nxt with
  | nil => simp at hi
  | cons x k r ihk ihr =>
    obtain ⟨n1, n2, n3, n4, n5⟩ := nodup_parts nd
    have hnx : x.id ≠ new.id := fun he => hnew (by simp [he])
    have hnk : new.id ∉ k.ids := fun he => hnew (by simp [he])
    have hnr : new.id ∉ r.ids := fun he => hnew (by simp [he])
    have hpx : par ≠ some x.id := fun he => hpar _ he (by simp)
    have hpk : ∀ j ∈ k.ids, par ≠ some j := fun j hj he => hpar j he (by simp [hj])
    have hpr : ∀ j ∈ r.ids, par ≠ some j := fun j hj he => hpar j he (by simp [hj])
    have hqx : prev ≠ some x.id := fun he => hprev _ he (by simp)
    have hqk : ∀ j ∈ k.ids, prev ≠ some j := fun j hj he => hprev j he (by simp [hj])
    have hqr : ∀ j ∈ r.ids, prev ≠ some j := fun j hj he => hprev j he (by simp [hj])
    have hseg := h
    obtain ⟨⟨l, hl, hx⟩, hk, hr⟩ := h
    rw [Forest.fromId, parentOf, prevOf] at hw
    rw [Forest.wrapFrom]
    by_cases hxi : x.id = i
    · simp only [if_pos hxi] at hw ⊢
      obtain rfl := ht (by simp [hxi])
      obtain ⟨l', hl', e'⟩ := hw.made
      refine ⟨⟨l', hl', ?_⟩, ⟨⟨l, hl, ?_⟩, ?_, ?_⟩, trivial⟩
      · rw [e']; simp [hxi]
      · rw [hxi, hw.first, ← hxi, hx]; rfl
      · refine hk.congr fun j hj => hw.other j ?_ ?_ (hpk j hj) (hqk j hj)
        · rintro rfl; exact hnk hj
        · simp only [topIds_cons, List.mem_cons, not_or]
          exact ⟨fun he => n1 (he ▸ hj), fun hm => n5 j hj (mem_ids_of_mem_topIds hm)⟩
      · refine hr.setParent n4 ?_ ?_
        · intro j hj hne
          refine hw.other j ?_ ?_ (hpr j hj) (hqr j hj)
          · rintro rfl; exact hnr hj
          · simp only [topIds_cons, List.mem_cons, not_or]
            exact ⟨fun he => n2 (he ▸ hj), hne⟩
        · intro j hj
          refine hw.rest j (by simp [hj]) ?_
          rintro rfl; exact n2 (hxi ▸ mem_ids_of_mem_topIds hj)
    · simp only [if_neg hxi] at hw ⊢
      by_cases hki : i ∈ k.ids
      · simp only [if_pos hki] at hw ⊢
        have hrun : ∀ j, j ∈ (k.fromId i).topIds → j ∈ k.ids :=
          fun j hj => fromId_sub (mem_ids_of_mem_topIds hj)
        have hq : ∀ j, k.prevOf i none = some j → j ∈ k.ids := by
          intro j hj
          by_cases hh : k.headId = some i
          · rw [prevOf_head hh] at hj; simp at hj
          · rcases prevOf_mem (prev := none) hki hh with h | ⟨j', h1, h2⟩
            · rw [h] at hj; simp at hj
            · rw [h2] at hj; simp only [Option.some.injEq] at hj; exact hj ▸ h1
        have hp : ∀ j, k.parentOf i (some x.id) = some j → j = x.id ∨ j ∈ k.ids := by
          intro j hj
          rcases parentOf_mem (par := some x.id) hki with h | ⟨j', h1, h2⟩
          · rw [h] at hj; simp at hj; exact Or.inl hj.symm
          · rw [h2] at hj; simp only [Option.some.injEq] at hj; exact Or.inr (hj ▸ h1)
        have hkn : k ≠ .nil := by rintro rfl; simp at hki
        obtain ⟨li, hli, hli2⟩ := hl.2 hkn
        refine ⟨?_, ihk hk n3 hki (fun _ => rfl) ?_ (by simp) hnk hw, ?_⟩
        · by_cases hti : i ∈ k.topIds
          · have hpe := parentOf_top (par := some x.id) n3 hti
            refine ⟨if l = some i then some new.id else l, ⟨fun h => absurd h (wrapFrom_ne_nil hkn),
              fun _ => ?_⟩, ?_⟩
            · by_cases hlie : l = some i
              · rw [if_pos hlie]
                refine ⟨new.id, rfl, spine_new n3 ?_⟩
                rw [hlie] at hli; simp only [Option.some.injEq] at hli
                rw [hli]; exact hli2
              · rw [if_neg hlie]
                exact ⟨li, hli, spine_wrapFrom hli2⟩
            · rw [hw.par x.id hpe, hx, headId_wrapFrom]; rfl
          · refine ⟨l, ⟨fun h => absurd h (wrapFrom_ne_nil hkn),
              fun _ => ⟨li, hli, spine_wrapFrom hli2⟩⟩, ?_⟩
            have hhead : k.headId ≠ some i := fun he => hti (headId_mem_topIds he)
            rw [hw.other x.id hnx (fun hm => n1 (hrun _ hm)) ?_ (fun he => n1 (hq _ he)), hx,
              headId_wrapFrom, if_neg hhead]
            intro he
            obtain ⟨j, h1, h2⟩ := parentOf_deep (par := some x.id) hki hti
            rw [h2] at he; simp only [Option.some.injEq] at he
            exact n1 (he ▸ h1)
        · intro j hj
          simp only [Option.some.injEq] at hj
          exact hj ▸ n1
        · refine hr.congr fun j hj => hw.other j ?_ ?_ ?_ ?_
          · rintro rfl; exact hnr hj
          · exact fun hm => n5 j (hrun j hm) hj
          · intro he
            rcases hp j he with h | h
            · exact n2 (h ▸ hj)
            · exact n5 j h hj
          · exact fun he => n5 j (hq j he) hj
      · simp only [if_neg hki] at hw ⊢
        have hri : i ∈ r.ids := by
          simp only [ids_cons, List.mem_cons, List.mem_append] at hi
          rcases hi with h | h | h
          · exact absurd h.symm hxi
          · exact absurd h hki
          · exact h
        have hrun : ∀ j, j ∈ (r.fromId i).topIds → j ∈ r.ids :=
          fun j hj => fromId_sub (mem_ids_of_mem_topIds hj)
        have hp : ∀ j, r.parentOf i par = some j → par = some j ∨ j ∈ r.ids := by
          intro j hj
          rcases parentOf_mem (par := par) hri with h | ⟨j', h1, h2⟩
          · exact Or.inl (h ▸ hj)
          · rw [h2] at hj; simp only [Option.some.injEq] at hj; exact Or.inr (hj ▸ h1)
        have hq : ∀ j, r.prevOf i (some x.id) = some j → j = x.id ∨ j ∈ r.ids := by
          intro j hj
          by_cases hh : r.headId = some i
          · rw [prevOf_head hh] at hj; simp only [Option.some.injEq] at hj; exact Or.inl hj.symm
          · rcases prevOf_mem (prev := some x.id) hri hh with h | ⟨j', h1, h2⟩
            · rw [h] at hj; simp at hj
            · rw [h2] at hj; simp only [Option.some.injEq] at hj; exact Or.inr (hj ▸ h1)
        have hpx' : r.parentOf i par ≠ some x.id := by
          intro he
          rcases hp _ he with h | h
          · exact hpx h
          · exact n2 h
        refine ⟨⟨l, hl, ?_⟩, ?_, ihr hr n4 hri (fun h' => ht (by simp [h'])) ?_ ?_ hnr hw⟩
        · by_cases hh : r.headId = some i
          · rw [hw.prev x.id (prevOf_head hh), hx, headId_wrapFrom, if_pos hh]; rfl
          · rw [hw.other x.id hnx (fun hm => n2 (hrun _ hm)) hpx' ?_, hx, headId_wrapFrom, if_neg hh]
            intro he
            rcases prevOf_mem (prev := some x.id) hri hh with h | ⟨j', h1, h2⟩
            · rw [h] at he; simp at he
            · rw [h2] at he; simp only [Option.some.injEq] at he; exact n2 (he ▸ h1)
        · refine hk.congr fun j hj => hw.other j ?_ ?_ ?_ ?_
          · rintro rfl; exact hnk hj
          · exact fun hm => n5 j hj (hrun j hm)
          · intro he
            rcases hp j he with h | h
            · exact hpk j hj h
            · exact n5 j hj h
          · intro he
            rcases hq j he with h | h
            · exact n1 (h ▸ hj)
            · exact n5 j hj h
        · exact fun j hj => hpar j hj |> fun h hm => h (by simp [hm])
        · intro j hj
          simp only [Option.some.injEq] at hj
          exact hj ▸ n2

end Syntree
