import Verif.Proof.Bridge

/-! Small facts used by the property theorems on traversals. -/

namespace Syntree

variable {α : Type}

open Forest

theorem mem_depths_aux {β : Type} {F : Forest β} (G : Forest β) (x : β) (D d : Nat)
    (hx : (d, x) ∈ G.depths D)
    (mk : ∀ l y k r, G = l ++ Forest.cons y k r →
      ∃ anc left, anc.length = D ∧ Loc F anc left y k r) :
    ∃ anc left kids right, anc.length = d ∧ Loc F anc left x kids right := by
  induction G generalizing D with
  | nil => simp [depths] at hx
  | cons y k r ihk ihr =>
    simp only [depths, List.mem_cons, List.mem_append, Prod.mk.injEq] at hx
    rcases hx with ⟨rfl, rfl⟩ | hx | hx
    · obtain ⟨anc, left, h1, h⟩ := mk .nil x k r rfl
      exact ⟨anc, left, k, r, h1, h⟩
    · obtain ⟨anc, left, h1, h⟩ := mk .nil y k r rfl
      exact ihk (D + 1) hx (fun l z k' r' e => ⟨y :: anc, l, by simp [h1], .child h e⟩)
    · exact ihr D hx (fun l z k' r' e => mk (.cons y k l) z k' r' (by rw [e]; rfl))

theorem Forest.Loc.of_depths {β : Type} {F : Forest β} {d : Nat} {x : β}
    (hx : (d, x) ∈ F.depths 0) :
    ∃ anc left kids right, anc.length = d ∧ Loc F anc left x kids right :=
  mem_depths_aux F x 0 d hx (fun l _ _ _ e => ⟨[], l, rfl, .root e⟩)

theorem Forest.Loc.of_id {F : Forest (Lab α)} {i : Nat} (hi : i ∈ F.ids) :
    ∃ anc left x kids right, x.id = i ∧ Loc F anc left x kids right := by
  obtain ⟨x, hx, rfl⟩ := List.mem_map.1 hi
  obtain ⟨anc, left, kids, right, h⟩ := Loc.exists_of_mem hx
  exact ⟨anc, left, x, kids, right, rfl, h⟩

/-- Splitting a list without duplicates at an element is unique. -/
theorem nodup_split {β : Type} {a : β} {l1 l2 m1 m2 : List β}
    (nd : (l1 ++ a :: l2).Nodup) (e : l1 ++ a :: l2 = m1 ++ a :: m2) : l1 = m1 ∧ l2 = m2 := by
  induction l1 generalizing m1 with
  | nil =>
    cases m1 with
    | nil => simpa using e
    | cons b m1 =>
      simp only [List.nil_append, List.cons_append, List.cons.injEq] at e
      obtain ⟨rfl, e⟩ := e
      simp only [List.nil_append, List.nodup_cons] at nd
      exact absurd (by rw [e]; simp) nd.1
  | cons b l1 ih =>
    cases m1 with
    | nil =>
      simp only [List.cons_append, List.nil_append, List.cons.injEq] at e
      obtain ⟨rfl, e⟩ := e
      simp only [List.cons_append, List.nodup_cons] at nd
      exact absurd (by simp) nd.1
    | cons c m1 =>
      simp only [List.cons_append, List.cons.injEq] at e
      obtain ⟨rfl, e⟩ := e
      have := ih (List.nodup_cons.1 nd).2 e
      exact ⟨by rw [this.1], this.2⟩

theorem inj_of_nodup_map {β γ : Type} {f : β → γ} {l : List β} (nd : (l.map f).Nodup) {x y : β}
    (hx : x ∈ l) (hy : y ∈ l) (e : f x = f y) : x = y := by
  induction l with
  | nil => simp at hx
  | cons a l ih =>
    simp only [List.map_cons, List.nodup_cons] at nd
    rcases List.mem_cons.1 hx with h1 | hx <;> rcases List.mem_cons.1 hy with h2 | hy
    · rw [h1, h2]
    · exact absurd (by rw [← h1, e]; exact List.mem_map_of_mem hy) nd.1
    · exact absurd (by rw [← h2, ← e]; exact List.mem_map_of_mem hx) nd.1
    · exact ih nd.2 hx hy

/-- `find` on the filtered sequence. -/
theorem find_filter {σ β : Type} {next : NextFn σ β} (q p : β → Bool) {s : σ} {l : List β}
    (h : Yields next s l) (fuel : Nat) (hf : l.length < fuel) :
    (findLoop next (fun n => q n && p n) fuel s).2 = Got.ofOption ((l.filter q).find? p) := by
  rcases findLoop_spec (fun n => q n && p n) h fuel hf with
    ⟨h1, s', h2⟩ | ⟨pre, x, post, s', h1, h2, h3, h4, h5⟩
  · rw [h2]
    have : (l.filter q).find? p = none := by
      rw [List.find?_eq_none]
      intro x hx hp
      have hx' := List.mem_filter.1 hx
      have : x ∈ l.filter (fun n => q n && p n) :=
        List.mem_filter.2 ⟨hx'.1, by simp [hx'.2, hp]⟩
      rw [h1] at this; simp at this
    rw [this]; rfl
  · rw [h4]
    simp only [Bool.and_eq_true] at h3
    have : (l.filter q).find? p = some x := by
      rw [h1, List.filter_append, List.filter_cons_of_pos h3.1, List.find?_append,
        List.find?_cons_of_pos h3.2]
      have : (pre.filter q).find? p = none := by
        rw [List.find?_eq_none]
        intro y hy hp
        have hy' := List.mem_filter.1 hy
        have := h2 y hy'.1
        simp [hy'.2, hp] at this
      rw [this]; rfl
    rw [this]; rfl

theorem length_le_of_nodup {g : Bool} {t : Tree α} {F : Forest (Lab α)} (h : Represents g t F)
    {l : List Nat} (hs : l.Sublist F.ids) : l.length ≤ t.nodes.length := by
  have := hs.length_le
  have h2 := h.perm.length_eq
  simp at h2; omega

end Syntree
