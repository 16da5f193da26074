import Verif.Proof.Spans
import Verif.Proof.EditTree
import Verif.Props.Order

/-! # Nodes are nested or apart -/

namespace Syntree

open Forest

variable {α : Type} {fl : Flavor}

/-- Every element in document order with what is above it, parent first. -/
def Forest.placed {β : Type} (up : List β) : Forest β → List (β × List β)
  | .nil => []
  | .cons x k r => (x, up) :: (k.placed (x :: up) ++ r.placed up)

theorem placed_fst {β : Type} (F : Forest β) (up : List β) : (F.placed up).map (·.1) = F.preorder := by
  induction F generalizing up with
  | nil => rfl
  | cons x k r ihk ihr => simp [Forest.placed, Forest.preorder, ihk, ihr]

theorem placed_up {β : Type} {F : Forest β} {up : List β} {p : β × List β} (h : p ∈ F.placed up) :
    (∀ a ∈ up, a ∈ p.2) ∧ ∀ a ∈ p.2, a ∈ F.preorder ∨ a ∈ up := by
  induction F generalizing up with
  | nil => simp [Forest.placed] at h
  | cons x k r ihk ihr =>
    simp only [Forest.placed, List.mem_cons, List.mem_append] at h
    simp only [Forest.preorder, List.mem_cons, List.mem_append]
    rcases h with rfl | h | h
    · exact ⟨fun a ha => ha, fun a ha => Or.inr ha⟩
    · obtain ⟨h1, h2⟩ := ihk h
      refine ⟨fun a ha => h1 a (by simp [ha]), fun a ha => ?_⟩
      rcases h2 a ha with h | h
      · exact Or.inl (Or.inr (Or.inl h))
      · rcases List.mem_cons.1 h with rfl | h
        · exact Or.inl (Or.inl rfl)
        · exact Or.inr h
    · obtain ⟨h1, h2⟩ := ihr h
      refine ⟨h1, fun a ha => ?_⟩
      rcases h2 a ha with h | h
      · exact Or.inl (Or.inr (Or.inr h))
      · exact Or.inr h

theorem placed_loc {β : Type} {F : Forest β} {p : β × List β} (h : p ∈ F.placed []) :
    ∃ left kids right, Loc F p.2 left p.1 kids right := by
  have key : ∀ (G : Forest β) (up : List β),
      (∀ left x kids right, G = left ++ .cons x kids right → ∃ left', Loc F up left' x kids right) →
      ∀ p ∈ G.placed up, ∃ left kids right, Loc F p.2 left p.1 kids right := by
    intro G
    induction G with
    | nil => intro up _ p hp; simp [Forest.placed] at hp
    | cons x k r ihk ihr =>
      intro up hG p hp
      simp only [Forest.placed, List.mem_cons, List.mem_append] at hp
      obtain ⟨l0, hx⟩ := hG .nil x k r rfl
      rcases hp with rfl | hp | hp
      · exact ⟨l0, k, r, hx⟩
      · exact ihk (x :: up) (fun left y kids right e => ⟨left, .child hx e⟩) p hp
      · refine ihr up (fun left y kids right e => ?_) p hp
        obtain ⟨l', h'⟩ := hG (.cons x k left) y kids right (by rw [e]; rfl)
        exact ⟨l', h'⟩
  exact key F [] (fun left x kids right e => ⟨left, .root e⟩) p h

/-- Laid out from `a` to `b` without overlap. A node may end before what is below it does, unless
`full`. -/
inductive Laid (full : Bool) : Nat → Forest (Lab α) → Nat → Prop where
  | nil {a b : Nat} : a ≤ b → Laid full a .nil b
  | cons {a m b : Nat} {x : Lab α} {k r : Forest (Lab α)} : a ≤ x.span.start → x.span.start ≤ x.span.stop →
      x.span.stop ≤ m → (full = true → m = x.span.stop) → Laid full x.span.start k m → Laid full m r b →
      Laid full a (.cons x k r) b

theorem Laid.bounds {full : Bool} {a b : Nat} {F : Forest (Lab α)} (h : Laid full a F b) :
    a ≤ b ∧ ∀ x ∈ F.preorder, a ≤ x.span.start ∧ x.span.stop ≤ b := by
  induction h with
  | nil h => exact ⟨h, by simp [Forest.preorder]⟩
  | cons h1 h2 h3 h4 h5 h6 ihk ihr =>
    refine ⟨by omega, ?_⟩
    intro y hy
    simp only [Forest.preorder, List.mem_cons, List.mem_append] at hy
    rcases hy with rfl | hy | hy
    · omega
    · have := ihk.2 y hy; omega
    · have := ihr.2 y hy; omega

theorem Tiled.laid {a b : Nat} {F : Forest (Lab α)} (h : Tiled a F b) : Laid true a F b := by
  induction F generalizing a b with
  | nil => exact .nil (Nat.le_of_eq h)
  | cons x k r ihk ihr =>
    obtain ⟨h1, h2, h3, h4⟩ := h
    refine .cons (by omega) (by omega) (Nat.le_refl _) (fun _ => rfl) ?_ (ihr h4)
    cases k with
    | nil => exact .nil (by omega)
    | cons => rw [h1]; exact ihk (h3 (by simp))

theorem Tiled.lastStop {a b s : Nat} {F : Forest (Lab α)} (h : Tiled a F b) (hn : F ≠ .nil) :
    a ≤ F.lastStop s ∧ F.lastStop s ≤ b := by
  induction F generalizing a b with
  | nil => simp at hn
  | cons x k r ihk ihr =>
    obtain ⟨h1, h2, h3, h4⟩ := h
    cases r with
    | nil =>
      simp only [Tiled] at h4
      cases k with
      | nil => simp only [Forest.lastStop]; omega
      | cons => simp only [Forest.lastStop]; omega
    | cons y k' r' =>
      have := ihr h4 (by simp)
      have e : (Forest.cons x k (.cons y k' r')).lastStop s = (Forest.cons y k' r').lastStop s := by
        cases k <;> rfl
      rw [e]; omega

theorem Tiled.shorten_laid {a b : Nat} {F : Forest (Lab α)} (h : Tiled a F b) : Laid false a F.shorten b := by
  induction F generalizing a b with
  | nil => exact .nil (Nat.le_of_eq h)
  | cons x k r ihk ihr =>
    obtain ⟨h1, h2, h3, h4⟩ := h
    cases k with
    | nil =>
      refine .cons (m := x.span.stop) ?_ ?_ (Nat.le_refl _) (by simp) (.nil ?_) (ihr h4)
      · show a ≤ x.span.start; omega
      · show x.span.start ≤ x.span.stop; omega
      · show x.span.start ≤ x.span.stop; omega
    | cons y k' r' =>
      obtain ⟨g1, g2⟩ := (h3 (by simp)).lastStop (s := x.span.stop) (by simp)
      refine .cons (m := x.span.stop) ?_ ?_ ?_ (by simp) ?_ (ihr h4)
      · show a ≤ x.span.start; omega
      · show x.span.start ≤ (Forest.cons y k' r').lastStop x.span.stop; omega
      · exact g2
      · show Laid false x.span.start _ _
        rw [h1]; exact ihk (h3 (by simp))

/-- Two nodes, the first one earlier in the document. -/
def NestedOrApart (full : Bool) (p q : Lab α × List (Lab α)) : Prop :=
  if p.1.id ∈ q.2.map (·.id) then
    p.1.span.start ≤ q.1.span.start ∧ (full = true → q.1.span.stop ≤ p.1.span.stop)
  else p.1.span.stop ≤ q.1.span.start

theorem Laid.pairwise {full : Bool} {a b : Nat} {F : Forest (Lab α)} (h : Laid full a F b)
    {up : List (Lab α)} (nd : F.ids.Nodup) (dj : ∀ x ∈ F.preorder, ∀ y ∈ up, x.id ≠ y.id) :
    (F.placed up).Pairwise (NestedOrApart full) := by
  induction h generalizing up with
  | nil => simp [Forest.placed]
  | @cons a m b x k r h1 h2 h3 h4 h5 h6 ihk ihr =>
    simp only [Forest.ids, Forest.preorder, List.map_cons, List.map_append, List.nodup_cons,
      List.nodup_append, List.mem_append, not_or] at nd
    obtain ⟨⟨nd1, nd2⟩, nd3, nd4, nd5⟩ := nd
    simp only [Forest.preorder, List.mem_cons, List.mem_append] at dj
    have hmem : ∀ {G : Forest (Lab α)} {up' : List (Lab α)} {p : Lab α × List (Lab α)}, p ∈ G.placed up' →
        p.1 ∈ G.preorder := by
      intro G up' p hp
      rw [← placed_fst G up']; exact List.mem_map_of_mem hp
    -- a node that is neither in `r` nor above it
    have hnot : ∀ y : Lab α, y.id ∉ r.ids → (∀ z ∈ up, y.id ≠ z.id) → ∀ q ∈ r.placed up,
        y.id ∉ q.2.map (·.id) := by
      intro y hy hz q hq hc
      obtain ⟨z, hz1, hz2⟩ := List.mem_map.1 hc
      rcases (placed_up hq).2 z hz1 with h | h
      · exact hy (hz2 ▸ List.mem_map_of_mem h)
      · exact hz z h hz2.symm
    simp only [Forest.placed, List.pairwise_cons, List.pairwise_append, List.mem_append]
    refine ⟨?_, ihk nd3 ?_, ihr nd4 (fun y hy z hz => dj y (Or.inr (Or.inr hy)) z hz), ?_⟩
    · rintro q (hq | hq)
      · have hin : x.id ∈ q.2.map (·.id) := List.mem_map_of_mem ((placed_up hq).1 x (by simp))
        have := h5.bounds.2 _ (hmem hq)
        rw [NestedOrApart, if_pos hin]
        exact ⟨this.1, fun hf => by have := h4 hf; show _ ≤ x.span.stop; omega⟩
      · rw [NestedOrApart, if_neg (hnot x nd2 (fun z hz => dj x (Or.inl rfl) z hz) q hq)]
        have := h6.bounds.2 _ (hmem hq)
        show x.span.stop ≤ _; omega
    · intro y hy z hz
      rcases List.mem_cons.1 hz with rfl | hz
      · intro e; exact nd1 (e ▸ List.mem_map_of_mem hy)
      · exact dj y (Or.inr (Or.inl hy)) z hz
    · intro p hp q hq
      have hp1 := hmem hp
      rw [NestedOrApart, if_neg (hnot p.1 ?_ (fun z hz => dj p.1 (Or.inr (Or.inl hp1)) z hz) q hq)]
      · have := h5.bounds.2 _ hp1
        have := h6.bounds.2 _ (hmem hq)
        omega
      · intro hc
        exact nd5 p.1.id (List.mem_map_of_mem hp1) _ hc rfl

end Syntree
