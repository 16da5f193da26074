import Verif.Proof.Order
import Verif.Props.Edit

/-!
# Property C80: ids and the order of the document

`made ops results` (`Spec/History.lean`) lists the calls that made the nodes, in the order of the ids.
-/

namespace Syntree

open Forest

variable {α : Type} {fl : Flavor} {ops : List (Op α)} {t : Tree α} {F : Forest (Lab α)}

/-- Node `i` was made by `close_at` or `close_at_with`. -/
def wrapperIn (calls : List (Op α)) (i : Nat) : Bool := (calls[i]?).any Op.isCloseAt

theorem order_of_built (h : Built fl ops t F) :
    (F.ids.filter fun i => ! wrapperIn (made ops (Sys.init.run fl ops).2) i).Pairwise (· < ·) ∧
    Every (Aged (wrapperIn (made ops (Sys.init.run fl ops).2))) F := by
  obtain ⟨n, os, h1, hs, hcur, ho, _, hlen, _, _⟩ := h.parts
  have := OrderInv.of_run h1 (wrapperIn (made ops (Sys.init.run fl ops).2)) (by
    intro i op hi
    rw [ho, wrapperIn, hi]; rfl)
  refine ⟨?_, hcur ▸ this.cur⟩
  have h2 := this.sorted
  rw [hs, hcur] at h2
  simpa [pathIds] using h2

theorem Forest.Loc.below_anc {β : Type} {F : Forest β} {anc : List β} {left kids right : Forest β} {y : β}
    (h : Loc F anc left y kids right) {a : β} (ha : a ∈ anc) :
    ∃ anc' left' kids' right', Loc F anc' left' a kids' right' ∧ y ∈ kids'.preorder := by
  have key : ∀ {anc : List β} {left kids right : Forest β} {y : β}, Loc F anc left y kids right → ∀ a ∈ anc,
      ∃ anc' left' kids' right', Loc F anc' left' a kids' right' ∧
        ∀ z, z = y ∨ z ∈ kids.preorder → z ∈ kids'.preorder := by
    intro anc left kids right y h
    induction h with
    | root _ => intro a ha; simp at ha
    | @child anc l p k r left x kids right hp e ih =>
      intro a ha
      have hin : ∀ z, z = x ∨ z ∈ kids.preorder → z ∈ k.preorder := by
        intro z hz
        rw [e, preorder_append, List.mem_append]
        simp only [Forest.preorder, List.mem_cons, List.mem_append]
        rcases hz with hz | hz
        · exact Or.inr (Or.inl hz)
        · exact Or.inr (Or.inr (Or.inl hz))
      rcases List.mem_cons.1 ha with rfl | ha
      · exact ⟨_, _, _, _, hp, hin⟩
      · obtain ⟨a1, a2, a3, a4, a5, a6⟩ := ih a ha
        exact ⟨a1, a2, a3, a4, a5, fun z hz => a6 z (Or.inr (hin z hz))⟩
  obtain ⟨a1, a2, a3, a4, a5, a6⟩ := key h a ha
  exact ⟨a1, a2, a3, a4, a5, a6 y (Or.inl rfl)⟩

/-- C80: whatever calls built the tree, if the nodes made by `close_at` and `close_at_with` are left out, then a
walk visits the nodes by ascending id; a node is younger than the nodes above it, except that a node made by
`close_at` or `close_at_with` is younger than everything below it. (`i` is above `j` if `ancestors()` of `j`
yields it after `j`.) -/
theorem C80_ids_and_order (h : Built fl ops t F) :
    (∀ w, Yields (Walk.next t.nodes) t.walk w →
      (w.filter fun i => ! wrapperIn (made ops (Sys.init.run fl ops).2) i).Pairwise (· < ·)) ∧
    ∀ j as, j < t.len → Yields (Ancestors.next t.nodes) (nodeAncestors j) (j :: as) → ∀ i ∈ as,
      if wrapperIn (made ops (Sys.init.run fl ops).2) i then j < i else i < j := by
  obtain ⟨h1, h2⟩ := order_of_built h
  have hr := h.represents
  refine ⟨?_, ?_⟩
  · intro w hw
    have := hw.det hr.walk
    subst this
    exact h1
  · intro j as hj hy i hi
    obtain ⟨anc, left, x, kids, right, rfl, hl⟩ := (C17_links_match_place (.built h)).1 j hj
    have e := hy.det (hr.ancestors hl)
    simp only [List.cons.injEq, true_and] at e
    subst e
    obtain ⟨a, ha, rfl⟩ := List.mem_map.1 hi
    obtain ⟨_, _, k, _, hl', hm⟩ := hl.below_anc ha
    obtain ⟨g1, g2⟩ := h2.loc hl'
    have hx : x.id ∈ k.ids := List.mem_map_of_mem hm
    split
    · next hw => exact g1 hw _ hx
    · next hw => exact g2 (by simpa using hw) _ hx

/-- `demoTree` has the nodes 0 (around 3 and 4) and 3 (around 1 and 2, made by `close_at`). -/
example : wrapperIn (made demoOps (Sys.init.run Flavor.default demoOps).2) 3 = true ∧
    wrapperIn (made demoOps (Sys.init.run Flavor.default demoOps).2) 0 = false := ⟨rfl, rfl⟩

example : (1 : Nat) < 3 := by
  have h := (C80_ids_and_order demo_built).2 1 [3, 0] (by decide) (C16_ancestors demo_made
    (.child (.child (.root (left := .nil) rfl) (left := .nil) rfl) (left := .nil) rfl)) 3 (by simp)
  exact h

theorem lit_calls_no_checkpoint (lit : Lit α) : ∀ op ∈ lit.calls, op.isCloseAt = false := by
  intro op hop
  induction lit with
  | nil => simp [Lit.calls] at hop
  | node d k r ihk ihr =>
    simp only [Lit.calls, List.mem_cons, List.mem_append] at hop
    rcases hop with rfl | hop | rfl | hop
    · rfl
    · exact ihk hop
    · rfl
    · exact ihr hop
  | nodeWith d sp k r ihk ihr =>
    simp only [Lit.calls, List.mem_cons, List.mem_append] at hop
    rcases hop with rfl | hop | rfl | hop
    · rfl
    · exact ihk hop
    · rfl
    · exact ihr hop
  | token d n r ih =>
    simp only [Lit.calls, List.mem_cons] at hop
    rcases hop with rfl | hop
    · rfl
    · exact ih hop
  | tokenEmpty d r ih =>
    simp only [Lit.calls, List.mem_cons] at hop
    rcases hop with rfl | hop
    · rfl
    · exact ih hop
  | tokenWith d sp r ih =>
    simp only [Lit.calls, List.mem_cons] at hop
    rcases hop with rfl | hop
    · rfl
    · exact ih hop

/-- C80: if no call used a checkpoint, the ids are the positions in the document: a walk yields `0, 1, 2, …`. So it
is for the tree of every literal, and for every tree returned by `modify`. -/
theorem C80_ids_are_positions :
    (∀ {ops : List (Op α)} {t : Tree α} {F : Forest (Lab α)}, Built fl ops t F →
      (∀ op ∈ ops, op.isCloseAt = false) → Yields (Walk.next t.nodes) t.walk (List.range t.len)) ∧
    (∀ {lit : Lit α} {t : Tree α}, lit.tree fl = .ok t → Yields (Walk.next t.nodes) t.walk (List.range t.len)) ∧
    (∀ {t : Tree α} {F : Forest (Lab α)} {c : ChangeSet} {t' : Tree α}, Made fl t F → c.modify fl t = .ok t' →
      Yields (Walk.next t'.nodes) t'.walk (List.range t'.len)) := by
  have key : ∀ {ops : List (Op α)} {t : Tree α} {F : Forest (Lab α)}, Built fl ops t F →
      (∀ op ∈ ops, op.isCloseAt = false) → Yields (Walk.next t.nodes) t.walk (List.range t.len) := by
    intro ops t F h hc
    have := h.represents.walk
    rw [h.numbered hc, h.represents.size] at this
    exact this
  refine ⟨key, ?_, ?_⟩
  · intro lit t ht
    rcases C01_literal_values (fl := fl) lit with ⟨t', F, h1, h2, _⟩ | h1
    · rw [ht] at h1
      cases h1
      refine key h2 ?_
      intro op hop
      exact lit_calls_no_checkpoint lit op hop
    · rw [ht] at h1; cases h1
  · intro t F c t' h hm
    rcases C44_modify_terminates h c with h1 | ⟨u, G, h1, h2, _, h4, _⟩
    · rw [hm] at h1; cases h1
    · rw [hm] at h1
      cases h1
      have := h2.represents.walk
      rw [h4, h2.represents.size] at this
      exact this

example : Yields (Walk.next plainTree.nodes) plainTree.walk [0, 1, 2, 3, 4, 5] :=
  C80_ids_are_positions.1 plain_built (by decide)

end Syntree
