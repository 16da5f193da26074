import Verif.Proof.Nav

/-! When is the stored `last` right? -/

namespace Syntree

variable {α : Type}

open Forest

theorem heldLast_spine (root : Bool) : ∀ F : Forest (Lab α), F ≠ .nil →
    ∃ i, F.heldLast root = some i ∧ i ∈ F.spine.map (·.id)
  | .nil, h => absurd rfl h
  | .cons x k .nil, _ => by
    rw [heldLast]
    by_cases hw : k.wrappedBy x.id = true
    · have hk : k ≠ .nil := by rintro rfl; simp [wrappedBy] at hw
      obtain ⟨i, h1, h2⟩ := heldLast_spine root k hk
      rw [if_pos hw]
      split
      · exact ⟨x.id, rfl, by simp [spine]⟩
      · exact ⟨i, h1, by simp only [spine_single, List.map_cons, List.mem_cons]; exact .inr h2⟩
    · rw [if_neg hw]
      exact ⟨x.id, rfl, by simp [spine]⟩
  | .cons x k (.cons y k' r), _ => by
    obtain ⟨i, h1, h2⟩ := heldLast_spine root (.cons y k' r) (by simp)
    exact ⟨i, by rw [heldLast]; exact h1, by rw [spine]; exact h2; simp⟩

theorem heldLast_iff (root : Bool) : ∀ F : Forest (Lab α), F.ids.Nodup →
    (F.heldLast root = F.lastId ↔ F.lastSeen root = true)
  | .nil, _ => by simp [heldLast, lastSeen]
  | .cons x k .nil, nd => by
    have hl : (Forest.cons x k .nil).lastId = some x.id := rfl
    rw [heldLast, lastSeen, hl]
    simp only [ids_cons, ids_nil, List.append_nil, List.nodup_cons] at nd
    by_cases hw : k.wrappedBy x.id = true
    · rw [if_pos hw, hw]
      have hk : k ≠ .nil := by rintro rfl; simp [wrappedBy] at hw
      obtain ⟨i, h1, h2⟩ := heldLast_spine root k hk
      have hne : k.heldLast root ≠ some x.id := by
        rw [h1]
        intro he
        simp only [Option.some.injEq] at he
        obtain ⟨z, hz, rfl⟩ := List.mem_map.1 h2
        exact nd.1 (he ▸ List.mem_map_of_mem (mem_preorder_of_spine hz))
      cases root with
      | true => simp [hne]
      | false =>
        simp only [Bool.not_true, Bool.not_false, Bool.true_and, Bool.false_or, true_and,
          Bool.and_eq_true, beq_iff_eq]
        have ih := heldLast_iff false k nd.2
        cases k with
        | nil => exact absurd rfl hk
        | cons y ky r =>
          cases r with
          | nil =>
            have e1 : (Forest.cons y ky .nil).topIds.head? = some y.id := rfl
            have e2 : (Forest.cons y ky .nil).lastId = some y.id := rfl
            have e3 : (Forest.cons y ky .nil).width = 1 := rfl
            rw [e2] at ih
            rw [e1, e3, ← ih]
            by_cases hh : (Forest.cons y ky .nil).heldLast false = some y.id
            · simp [hh]
            · simp only [hh, if_false]
              simp only [and_false, iff_false]
              exact hne
          | cons z kz rz =>
            have e3 : ¬ (Forest.cons y ky (.cons z kz rz)).width = 1 := by
              simp only [width]; omega
            have e1 : (Forest.cons y ky (.cons z kz rz)).topIds.head? = some y.id := rfl
            have hn : ¬ (Forest.cons y ky (.cons z kz rz)).heldLast false = some y.id := by
              rw [h1]
              intro he
              simp only [Option.some.injEq] at he
              subst he
              rw [spine] at h2
              · obtain ⟨u, hu, he⟩ := List.mem_map.1 h2
                have nd2 := nd.2
                rw [ids_cons, List.nodup_cons] at nd2
                apply nd2.1
                rw [← he]
                exact List.mem_append_right _ (List.mem_map_of_mem (mem_preorder_of_spine hu))
              · simp
            rw [e1, if_neg hn]
            simp only [e3, false_and, iff_false]
            exact hne
    · rw [if_neg hw]
      simp only [Bool.not_eq_true] at hw
      simp [hw]
  | .cons x k (.cons y k' r), nd => by
    have nd' : (Forest.cons y k' r).ids.Nodup := by
      rw [ids_cons, List.nodup_cons, List.nodup_append] at nd
      exact nd.2.2.1
    have ih := heldLast_iff root (.cons y k' r) nd'
    rw [heldLast, lastSeen, lastId_cons]
    obtain ⟨j, hj⟩ := lastId_isSome (F := Forest.cons y k' r) (by simp)
    rw [hj] at ih ⊢
    exact ih

end Syntree
