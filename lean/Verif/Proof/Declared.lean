import Verif.Spec.Declared

/-! What the rule of `flavor!` matches. -/

namespace Syntree

/-- What the rule of the macro matches. -/
theorem bound_iff (d : Decl) (b : Decl.Bound) : d.bound = some b ↔
    d = (.index, b.index) :: (optLine .width b.width ++ (optLine .storage b.storage ++
      optLine .indexes b.indexes)) := by
  constructor
  · intro h
    have back : ∀ (k : Key) (d : Decl), d = optLine k (Decl.opt k d).1 ++ (Decl.opt k d).2 := by
      intro k d
      cases d with
      | nil => rfl
      | cons x d =>
        obtain ⟨k', ty⟩ := x
        by_cases e : k' = k
        · subst e; simp [Decl.opt, optLine]
        · simp [Decl.opt, e, optLine]
    unfold Decl.bound at h
    split at h
    · rename_i i d'
      dsimp only at h
      split at h
      · rename_i he
        simp only [Option.some.injEq] at h
        subst h
        congr 1
        have h1 := back .width d'
        have h2 := back .storage (Decl.opt .width d').2
        have h3 := back .indexes (Decl.opt .storage (Decl.opt .width d').2).2
        rw [he, List.append_nil] at h3
        dsimp only
        rw [← h3, ← h2, ← h1]
      · simp at h
    · simp at h
  · intro h
    obtain ⟨i, w, s, x⟩ := b
    subst h
    cases w <;> cases s <;> cases x <;> rfl

end Syntree
