import Verif.Proof.EditRow
import Verif.Props.Edit

/-!
# Removing one node after the other: C42, C43
-/

namespace Syntree

open Forest

variable {α : Type} {fl : Flavor} {t : Tree α} {F : Forest (Lab α)}

theorem fits_sim {F G : Forest (Lab α)} (hs : CopySim fl.ik F G) :
    F.literal.Fits fl ↔ G.literal.Fits fl := by
  unfold Lit.Fits
  rw [textOf_eq, textOf_eq, hs.text, count_literal, count_literal, hs.size]

/-- One removal, in the tree or not. -/
theorem hit_or_not (h : Made fl t F) (i : Nat) :
    IsCopy fl ((ChangeSet.new.remove i).modify fl t) (F.hitAt i) := by
  by_cases hi : i < t.len
  · exact C42_one_removal_exact h hi (remove_one i)
  · have hsz : F.size = t.len := h.represents.size
    rw [hitAt_beyond F i (by omega)]
    exact C41_copy h (fun j hj => by rw [(remove_one i j).1 hj]; omega)

theorem row_sim : ∀ (is : List Nat) {F G : Forest (Lab α)} {ik : IndexKind}, CopySim ik F G →
    CopySim ik (is.foldl (fun F i => Forest.hitAt i F) F) (is.foldl (fun F i => Forest.hitAt i F) G)
  | [], _, _, _, h => h
  | i :: is, _, _, _, h => row_sim is (h.hitAt i)

/-- C42, exactly, for removals one after the other: for every tree and every sequence of ids, in the
tree or not, each removed with a change set of its own from the tree returned before. As long as all
the copies on the way fit the flavor, the last one is a copy of the nested list that is hit at these
positions one after the other (`Forest.hitAt`); otherwise a call of `modify` fails with `Overflow`. -/
theorem C42_one_after_another (h : Made fl t F) {is : List Nat} (hne : is ≠ []) :
    let stage := fun l : List Nat => l.foldl (fun G i => Forest.hitAt i G) F
    ((∀ l, l <+: is → l ≠ [] → (stage l).literal.Fits fl) →
      IsCopy fl (removeEach fl is t) (stage is)) ∧
    ((∃ l, l <+: is ∧ l ≠ [] ∧ ¬ (stage l).literal.Fits fl) →
      removeEach fl is t = .error .overflow) := by
  induction is generalizing t F with
  | nil => exact absurd rfl hne
  | cons i is ih =>
    intro stage
    have h1 := hit_or_not h i
    by_cases hf : (F.hitAt i).literal.Fits fl
    · obtain ⟨t', e1, e2, e3, e4⟩ := h1.1 hf
      have hM : Made fl t' (((F.hitAt i).relaid fl.ik).shorten) := .edited h e1 e2
      have hs := sim_copy fl.ik (F.hitAt i)
      have e0 : removeEach fl (i :: is) t = removeEach fl is t' := by simp only [removeEach, e1]
      by_cases his : is = []
      · subst his
        refine ⟨fun _ => ?_, ?_⟩
        · rw [e0]
          show IsCopy fl (.ok t') (F.hitAt i)
          rw [← e1]; exact h1
        · rintro ⟨l, hl, hl0, hn⟩
          have : l = [i] := by
            obtain ⟨r, hr⟩ := hl
            cases l with
            | nil => exact absurd rfl hl0
            | cons a l =>
              simp only [List.cons_append, List.cons.injEq, List.append_eq_nil_iff] at hr
              rw [hr.1, hr.2.1]
          subst this
          exact absurd hf hn
      · obtain ⟨a, b⟩ := ih hM his
        refine ⟨fun hall => ?_, ?_⟩
        · rw [e0]
          have := a (fun l hl hl0 => by
            rw [← fits_sim (row_sim l hs)]
            have := hall (i :: l) (by
              obtain ⟨r, hr⟩ := hl
              exact ⟨r, by rw [List.cons_append, hr]⟩) (by simp)
            exact this)
          exact (this.sim (sim_symm (row_sim is hs)))
        · rintro ⟨l, hl, hl0, hn⟩
          rw [e0]
          cases l with
          | nil => exact absurd rfl hl0
          | cons a' l =>
            obtain ⟨r, hr⟩ := hl
            simp only [List.cons_append, List.cons.injEq] at hr
            obtain ⟨rfl, hr⟩ := hr
            refine b ⟨l, ⟨r, hr⟩, ?_, ?_⟩
            · rintro rfl; exact hn hf
            · rw [← fits_sim (row_sim l hs)]; exact hn
    · have e1 := h1.2 hf
      have e0 : removeEach fl (i :: is) t = .error .overflow := by simp only [removeEach, e1]
      refine ⟨fun hall => absurd (hall [i] ⟨is, rfl⟩ (by simp)) hf, fun _ => e0⟩

/-- Removing 3 from `1: (2, 3: (4), 5), 6` and then what has its id afterwards, the 5, which is the last
child by then: the copy that is returned has the 1 twice. -/
example : IsCopy Flavor.default (removeEach Flavor.default [2, 2] plainTree)
    (.cons ⟨0, 1, ⟨0, 0⟩⟩ (leaf ⟨1, 2, ⟨0, 3⟩⟩)
      (.cons ⟨0, 1, ⟨0, 6⟩⟩ (.cons ⟨1, 2, ⟨0, 3⟩⟩ .nil (leaf ⟨4, 5, ⟨5, 6⟩⟩)) (leaf ⟨5, 6, ⟨6, 7⟩⟩))) :=
  (C42_one_after_another plain_made (is := [2, 2]) (by simp)).1 (by
    rintro l ⟨r, hr⟩ hl
    match l, hr with
    | [], _ => exact absurd rfl hl
    | [a], hr =>
      simp only [List.cons_append, List.cons.injEq] at hr
      rw [hr.1]
      exact ⟨by decide, by show 5 < 2 ^ 32; decide⟩
    | [a, b], hr =>
      simp only [List.cons_append, List.cons.injEq] at hr
      rw [hr.1, hr.2.1]
      exact ⟨by decide, by show 8 < 2 ^ 32; decide⟩
    | a :: b :: c :: l, hr => simp at hr)

/-- C43, partial: how several nodes can be removed by their own ids. Let `p` mark nodes of a tree whose
ids are in document order (`C80_ids_are_positions` says when), such that no marked node (not below
another marked one) is the last child of its parent. Remove the marked nodes that are not below another
marked one, one after the other, *beginning with the last one*, with a change set of its own for each.
The tree returned last is a copy of the tree without the marked nodes and everything below them. No call
fails if the tree itself can be copied.

Missing: all in one change set (false, `C43_fails`); last children (false, `C42_fails_last_child`). -/
theorem C43_last_first_partial (h : Made fl t F) (hn : F.Numbered) {p : Lab α → Bool}
    (hs : F.KeepsLast p) (hne : F.marked p ≠ []) (hf : F.literal.Fits fl) :
    IsCopy fl (removeEach fl ((F.marked p).map (·.id)).reverse t) (F.prune p) ∧
    (F.prune p).literal.Fits fl := by
  have hk : keepsB p true F := keepsB_of F true (fun anc left x kids right hl ha hp => by
    rcases hs anc left x kids right hl ha hp with h | h
    · exact .inl ⟨rfl, h⟩
    · exact .inr h)
  have hids : F.ids = List.range' 0 F.size := by rw [hn, List.range_eq_range']
  have e := marked_places (p := p) F 0 hids
  simp only [Nat.zero_add, List.map_id'] at e
  obtain ⟨r1, r2⟩ := places_run fl.ik F true hk
  have hfit : ∀ l, l <+: (places p F).reverse →
      (l.foldl (fun (F : Forest (Lab α)) i => F.hitAt i) F).literal.Fits fl := by
    intro l hl
    obtain ⟨a1, a2⟩ := r1.stage hl
    obtain ⟨f1, f2⟩ := hf
    refine ⟨?_, ?_⟩
    · rw [count_literal] at f1 ⊢
      omega
    · rw [textOf_eq] at f2 ⊢
      cases hi : fl.ik with
      | empty => trivial
      | bits w =>
        rw [hi] at f2 a2
        exact Nat.lt_of_le_of_lt a2 f2
  rw [e]
  have hne' : (places p F).reverse ≠ [] := by
    intro h0
    have h1 : (places p F) = [] := by simpa using h0
    rw [h1] at e
    exact hne (by simpa using e)
  have := (C42_one_after_another h hne').1 (fun l hl _ => hfit l hl)
  refine ⟨?_, ?_⟩
  · rw [← r2]; exact this
  · have := hfit _ (List.prefix_refl _)
    rw [r2] at this; exact this

/-- The 2 and the 3, next to each other, are removed from `1: (2, 3: (4), 5), 6`, and also the last root:
`removeEach` gets the ids 5, 2, 1. -/
example : IsCopy Flavor.default (removeEach Flavor.default [5, 2, 1] plainTree)
    (.cons ⟨0, 1, ⟨0, 6⟩⟩ (leaf ⟨4, 5, ⟨5, 6⟩⟩) .nil) :=
  (C43_last_first_partial plain_made plain_numbered
    (p := fun x => decide (x.data = 2) || decide (x.data = 3) || decide (x.data = 6))
    (keepsLast_of (by simp [plainForest, keepsB]))
    (by decide) ⟨by decide, by show 7 < 2 ^ 32; decide⟩).1

end Syntree
