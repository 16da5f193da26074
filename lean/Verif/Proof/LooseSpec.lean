import Verif.Proof.LooseCover

/-! What the operations of the specification `Loose` do, in terms of locations and of the order of the
elements. -/

namespace Syntree

variable {α : Type}

open Forest

theorem fromId_append {i : Nat} {A G : Forest (Lab α)} (h : i ∉ A.ids) :
    (A ++ G).fromId i = G.fromId i := by
  induction A with
  | nil => rfl
  | cons x k r _ ih =>
    simp only [ids_cons, List.mem_cons, List.mem_append, not_or] at h
    rw [cons_append, fromId, if_neg (fun he => h.1 he.symm), if_neg h.2.1]
    exact ih h.2.2

theorem wrapFrom_append {i : Nat} {new : Lab α} {A G : Forest (Lab α)} (h : i ∉ A.ids) :
    (A ++ G).wrapFrom i new = A ++ G.wrapFrom i new := by
  induction A with
  | nil => rfl
  | cons x k r _ ih =>
    simp only [ids_cons, List.mem_cons, List.mem_append, not_or] at h
    rw [cons_append, wrapFrom, if_neg (fun he => h.1 he.symm), if_neg h.2.1, ih h.2.2]
    rfl

/-- Going down to the element. -/
theorem nodup_down {A k r : Forest (Lab α)} {p : Lab α} {i : Nat}
    (nd : (A ++ Forest.cons p k r).ids.Nodup) (hi : i ∈ k.ids) : i ∉ A.ids ∧ p.id ≠ i := by
  rw [ids_append, List.nodup_append, ids_cons, List.nodup_cons] at nd
  refine ⟨fun hm => nd.2.2 i hm i (by simp [hi]) rfl, ?_⟩
  rintro rfl
  exact nd.2.1.1 (List.mem_append_left _ hi)

theorem Forest.Loc.wrapDown {F : Forest (Lab α)} {anc : List (Lab α)} {l k r : Forest (Lab α)}
    {p : Lab α} {i : Nat} {new : Lab α} (hl : Loc F anc l p k r) (nd : F.ids.Nodup)
    (hi : i ∈ k.ids) :
    F.fromId i = k.fromId i ∧ Loc (F.wrapFrom i new) anc l p (k.wrapFrom i new) r := by
  induction hl with
  | root e =>
    subst e
    obtain ⟨h1, h2⟩ := nodup_down nd hi
    rw [fromId_append h1, wrapFrom_append h1, fromId, wrapFrom, if_neg h2, if_neg h2, if_pos hi,
      if_pos hi]
    exact ⟨rfl, .root rfl⟩
  | @child anc l' p' k' r' l p k r hp e ih =>
    have hi' : i ∈ k'.ids := by rw [e, ids_append, ids_cons]; simp [hi]
    obtain ⟨e1, e2⟩ := ih hi'
    have nd' : k'.ids.Nodup := (hp.nodup_kids nd).2
    rw [e] at nd' e1 e2
    obtain ⟨h1, h2⟩ := nodup_down nd' hi
    rw [wrapFrom_append h1, wrapFrom, if_neg h2, if_pos hi] at e2
    rw [fromId_append h1, fromId, if_neg h2, if_pos hi] at e1
    exact ⟨e1, .child e2 rfl⟩

theorem Forest.Loc.wrapHere {F : Forest (Lab α)} {anc : List (Lab α)}
    {left kids right : Forest (Lab α)} {x new : Lab α} (hl : Loc F anc left x kids right)
    (nd : F.ids.Nodup) :
    F.fromId x.id = .cons x kids right ∧
    Loc (F.wrapFrom x.id new) anc left new (.cons x kids right) .nil := by
  have here : ∀ {G : Forest (Lab α)}, G = left ++ .cons x kids right → G.ids.Nodup →
      G.fromId x.id = .cons x kids right ∧
      G.wrapFrom x.id new = left ++ .cons new (.cons x kids right) .nil := by
    intro G e nd
    subst e
    have h1 : x.id ∉ left.ids := by
      rw [ids_append, List.nodup_append] at nd
      exact fun hm => nd.2.2 _ hm _ (by simp) rfl
    rw [fromId_append h1, wrapFrom_append h1, fromId, wrapFrom, if_pos rfl, if_pos rfl]
    exact ⟨rfl, rfl⟩
  cases hl with
  | root e =>
    obtain ⟨h1, h2⟩ := here e nd
    exact ⟨h1, .root h2⟩
  | child hp e =>
    obtain ⟨h1, h2⟩ := here e (hp.nodup_kids nd).2
    have hi := congrArg (fun G => x.id ∈ Forest.ids G) e
    simp only [ids_append, ids_cons] at hi
    have hi := hi.mpr (by simp)
    obtain ⟨e1, e2⟩ := hp.wrapDown (new := new) nd hi
    exact ⟨e1.trans h1, .child e2 h2⟩

theorem preorder_wrapFrom {i : Nat} {new : Lab α} {F : Forest (Lab α)} (hi : i ∈ F.ids) :
    ∃ pre post, F.preorder = pre ++ (F.fromId i).preorder ++ post ∧
      (F.wrapFrom i new).preorder = pre ++ new :: (F.fromId i).preorder ++ post := by
  induction F with
  | nil => simp at hi
  | cons x k r ihk ihr =>
    simp only [fromId, wrapFrom]
    by_cases he : x.id = i
    · rw [if_pos he, if_pos he]
      exact ⟨[], [], by simp, by simp [single]⟩
    · rw [if_neg he, if_neg he]
      by_cases hk : i ∈ k.ids
      · rw [if_pos hk, if_pos hk]
        obtain ⟨pre, post, e1, e2⟩ := ihk hk
        refine ⟨x :: pre, post ++ r.preorder, ?_, ?_⟩
        · rw [preorder_cons, e1]; simp
        · rw [preorder_cons, e2]; simp
      · rw [if_neg hk, if_neg hk]
        have hr : i ∈ r.ids := by
          simp only [ids_cons, List.mem_cons, List.mem_append] at hi
          rcases hi with h | h | h
          · exact absurd h.symm he
          · exact absurd h hk
          · exact h
        obtain ⟨pre, post, e1, e2⟩ := ihr hr
        refine ⟨x :: (k.preorder ++ pre), post, ?_, ?_⟩
        · rw [preorder_cons, e1]; simp
        · rw [preorder_cons, e2]; simp

end Syntree
