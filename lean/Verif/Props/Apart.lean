import Verif.Proof.Apart
import Verif.Props.Spans
import Verif.Props.Edit

/-!
# Property C83: spans are nested like the nodes

`i` is above `j` if `ancestors()` of `j` yields it after `j` itself.
-/

namespace Syntree

open Forest

variable {α : Type} {fl : Flavor} {ops : List (Op α)} {t : Tree α} {F : Forest (Lab α)}

theorem Laid.walk {full : Bool} {a b : Nat} (h : Made fl t F) (hL : Laid full a F b) {w : List Nat}
    (hw : Yields (Walk.next t.nodes) t.walk w) :
    w.Pairwise fun i j => ∃ si sj above, nodeSpan t.nodes i = some si ∧ nodeSpan t.nodes j = some sj ∧
      Yields (Ancestors.next t.nodes) (nodeAncestors j) (j :: above) ∧
      if i ∈ above then si.start ≤ sj.start ∧ (full = true → sj.stop ≤ si.stop)
      else si.stop ≤ sj.start := by
  have hr := h.represents
  have e := hw.det hr.walk
  subst e
  have hp := hL.pairwise (up := []) hr.nodup (by simp)
  have e2 : F.ids = (F.placed []).map (fun p => p.1.id) := by
    rw [Forest.ids, ← placed_fst F [], List.map_map]; rfl
  rw [e2, List.pairwise_map]
  refine hp.imp_of_mem ?_
  intro p q hp hq hpq
  obtain ⟨l1, k1, r1, hl1⟩ := placed_loc hp
  obtain ⟨l2, k2, r2, hl2⟩ := placed_loc hq
  obtain ⟨_, _, s1, _⟩ := (C17_links_match_place h).2.2 hl1
  obtain ⟨_, _, s2, _⟩ := (C17_links_match_place h).2.2 hl2
  exact ⟨p.1.span, q.1.span, q.2.map (fun y : Lab α => y.id), s1, s2, hr.ancestors hl2, hpq⟩

/-- C83: if only the cursor placed the nodes (and no token was lost), then for any two nodes, `i` being visited
before `j`: if `i` is above `j` the span of `i` covers that of `j`, and otherwise the span of `i` ends before or where
that of `j` starts. -/
theorem C83_nested_or_apart (h : Built fl ops t F) (hc : ∀ op ∈ ops, op.cursorDriven = true)
    (hsp : Spare fl t.len (Sys.init.run fl ops).2) {w : List Nat}
    (hw : Yields (Walk.next t.nodes) t.walk w) :
    w.Pairwise fun i j => ∃ si sj above, nodeSpan t.nodes i = some si ∧ nodeSpan t.nodes j = some sj ∧
      Yields (Ancestors.next t.nodes) (nodeAncestors j) (j :: above) ∧
      if i ∈ above then si.start ≤ sj.start ∧ sj.stop ≤ si.stop else si.stop ≤ sj.start := by
  obtain ⟨h1, _, _⟩ := h.lens hc hsp
  simpa using h1.laid.walk (.built h) hw

/-- In `demoTree` node 0 is above 3, 1, 2 and 4, and ends where 5 starts. -/
example : nodeSpan demoTree.nodes 0 = some ⟨0, 3⟩ ∧ nodeSpan demoTree.nodes 5 = some ⟨3, 4⟩ ∧
    ∃ w, Yields (Walk.next demoTree.nodes) demoTree.walk w ∧
      w.Pairwise fun i j => ∃ si sj above, nodeSpan demoTree.nodes i = some si ∧
        nodeSpan demoTree.nodes j = some sj ∧
        Yields (Ancestors.next demoTree.nodes) (nodeAncestors j) (j :: above) ∧
        if i ∈ above then si.start ≤ sj.start ∧ sj.stop ≤ si.stop else si.stop ≤ sj.start :=
  ⟨rfl, rfl, _, demo_made.represents.walk, C83_nested_or_apart demo_built (by decide)
    (Or.inl (by decide)) demo_made.represents.walk⟩

theorem pairwise_pick {β : Type} {R : β → β → Prop} {l : List β} (h : l.Pairwise R) {x y : β} (hx : x ∈ l)
    (hy : y ∈ l) (hne : x ≠ y) : R x y ∨ R y x := by
  induction h with
  | nil => simp at hx
  | cons h1 _ ih =>
    rcases List.mem_cons.1 hx with ex | hx <;> rcases List.mem_cons.1 hy with ey | hy
    · exact absurd (ex.trans ey.symm) hne
    · exact Or.inl (ex ▸ h1 _ hy)
    · exact Or.inr (ey ▸ h1 _ hx)
    · exact ih hx hy

/-- C83: so two different nodes that both contain some index are one above the other. -/
theorem C83_overlap (h : Built fl ops t F) (hc : ∀ op ∈ ops, op.cursorDriven = true)
    (hsp : Spare fl t.len (Sys.init.run fl ops).2) {i j : Nat} (hi : i < t.len) (hj : j < t.len) (hne : i ≠ j)
    {si sj : Span} (hsi : nodeSpan t.nodes i = some si) (hsj : nodeSpan t.nodes j = some sj) {at_ : Nat}
    (h1 : si.contains at_ = true) (h2 : sj.contains at_ = true) {ai aj : List Nat}
    (hai : Yields (Ancestors.next t.nodes) (nodeAncestors i) (i :: ai))
    (haj : Yields (Ancestors.next t.nodes) (nodeAncestors j) (j :: aj)) : i ∈ aj ∨ j ∈ ai := by
  have hr := h.represents
  have hmem : ∀ k, k < t.len → k ∈ F.ids := fun k hk => by
    rw [hr.perm.mem_iff]; simpa [Tree.len] using hk
  simp only [Span.contains, Bool.and_eq_true, decide_eq_true_eq] at h1 h2
  rcases pairwise_pick (C83_nested_or_apart h hc hsp hr.walk) (hmem i hi) (hmem j hj) hne with g | g
  · obtain ⟨s1, s2, above, e1, e2, e3, e4⟩ := g
    rw [hsi] at e1; cases e1
    rw [hsj] at e2; cases e2
    have := e3.det haj
    simp only [List.cons.injEq, true_and] at this
    subst this
    split at e4
    · exact Or.inl (by assumption)
    · omega
  · obtain ⟨s1, s2, above, e1, e2, e3, e4⟩ := g
    rw [hsj] at e1; cases e1
    rw [hsi] at e2; cases e2
    have := e3.det hai
    simp only [List.cons.injEq, true_and] at this
    subst this
    split at e4
    · exact Or.inr (by assumption)
    · omega

/-- Nodes 0 and 1 of `demoTree` both contain the index 2. -/
example : 0 ∈ [3, 0] ∨ 1 ∈ ([] : List Nat) :=
  C83_overlap demo_built (by decide) (Or.inl (by decide)) (i := 0) (j := 1) (by decide) (by decide) (by decide)
    (si := ⟨0, 3⟩) (sj := ⟨0, 3⟩) rfl rfl (at_ := 2) rfl rfl
    (C16_ancestors demo_made (.root (left := .nil) rfl))
    (C16_ancestors demo_made (.child (.child (.root (left := .nil) rfl) (left := .nil) rfl) (left := .nil) rfl))

theorem layout_tiled (ik : IndexKind) (lit : Lit α) : ∀ pos i : Nat,
    Tiled pos (lit.layout ik pos i) (pos + lit.len ik) := by
  have fix : ∀ {a b c : Nat} {G : Forest (Lab α)}, Tiled a G b → b = c → Tiled a G c := by
    intro a b c G h e; exact e ▸ h
  induction lit with
  | nil => intro pos i; exact (Nat.add_zero pos).symm
  | node d k r ihk ihr =>
    intro pos i
    refine ⟨rfl, Nat.le_add_right _ _, fun _ => ihk _ _, fix (ihr _ _) ?_⟩
    show pos + k.len ik + r.len ik = pos + (k.len ik + r.len ik); omega
  | nodeWith d sp k r ihk ihr =>
    intro pos i
    refine ⟨rfl, Nat.le_add_right _ _, fun _ => ihk _ _, fix (ihr _ _) ?_⟩
    show pos + k.len ik + r.len ik = pos + (k.len ik + r.len ik); omega
  | token d n r ih =>
    intro pos i
    refine ⟨rfl, Nat.le_add_right _ _, fun h => absurd rfl h, fix (ih _ _) ?_⟩
    show pos + Lit.tokenLen ik n + r.len ik = pos + (Lit.tokenLen ik n + r.len ik); omega
  | tokenEmpty d r ih => intro pos i; exact ⟨rfl, Nat.le_refl _, fun h => absurd rfl h, ih _ _⟩
  | tokenWith d sp r ih => intro pos i; exact ⟨rfl, Nat.le_refl _, fun h => absurd rfl h, ih _ _⟩

/-- C83 for every tree returned by `modify`, whatever it was made from: a node starts before or where the nodes below
it start, and ends before or where the later nodes that are not below it start. (It may end before the nodes below it
do, `C83_modified_fails`.) -/
theorem C83_modified (h : Made fl t F) {c : ChangeSet} {t' : Tree α} (hm : c.modify fl t = .ok t') {w : List Nat}
    (hw : Yields (Walk.next t'.nodes) t'.walk w) :
    w.Pairwise fun i j => ∃ si sj above, nodeSpan t'.nodes i = some si ∧ nodeSpan t'.nodes j = some sj ∧
      Yields (Ancestors.next t'.nodes) (nodeAncestors j) (j :: above) ∧
      if i ∈ above then si.start ≤ sj.start else si.stop ≤ sj.start := by
  obtain ⟨G, cut, _, _, h1, h2⟩ := C51_modify_exact h c
  by_cases hf : G.literal.Fits fl ∧ (cut = true → G.size < 2 ^ fl.width - 1)
  · obtain ⟨u, e1, e2, _⟩ := h1 hf
    rw [hm] at e1
    cases e1
    have := (layout_tiled fl.ik G.literal 0 0).shorten_laid.walk (.edited h hm e2) hw
    simpa using this
  · rw [h2 hf] at hm; cases hm

/-- The copy of `demoTree` with an id registered that does not occur. -/
example : ∃ t', (ChangeSet.new.remove 9).modify Flavor.default demoTree = .ok t' ∧
    ∃ w, Yields (Walk.next t'.nodes) t'.walk w ∧ 4 < w.length ∧
      w.Pairwise fun i j => ∃ si sj above, nodeSpan t'.nodes i = some si ∧ nodeSpan t'.nodes j = some sj ∧
        Yields (Ancestors.next t'.nodes) (nodeAncestors j) (j :: above) ∧
        if i ∈ above then si.start ≤ sj.start else si.stop ≤ sj.start := by
  rcases C44_modify_terminates (fl := Flavor.default) demo_made (ChangeSet.new.remove 9) with h | ⟨t', G, h1, h2, _⟩
  · exact absurd h (by simp [show (ChangeSet.new.remove 9).modify Flavor.default demoTree = .ok _ from rfl])
  · refine ⟨t', h1, _, h2.represents.walk, ?_, C83_modified demo_made h1 h2.represents.walk⟩
    have e : (ChangeSet.new.remove 9).modify Flavor.default demoTree = .ok t' := h1
    have hs := h2.represents.size
    cases e
    rw [Forest.ids, List.length_map, preorder_length, hs]
    decide

/-- C83: a node of a modified tree may end before the nodes below it start. -/
theorem C83_modified_fails : ∃ (ops : List (Op Nat)) (t t' : Tree Nat) (F : Forest (Lab Nat)),
    Built Flavor.default ops t F ∧ (∀ op ∈ ops, op.cursorDriven = true) ∧
    ChangeSet.new.modify Flavor.default t = .ok t' ∧
    nodeParent t'.nodes 2 = some 1 ∧ nodeParent t'.nodes 1 = some 0 ∧
    nodeSpan t'.nodes 0 = some ⟨0, 0⟩ ∧ nodeSpan t'.nodes 3 = some ⟨1, 4⟩ ∧
    nodeParent t'.nodes 3 = some 1 :=
  ⟨[.open 1, .open 2, .token 3 1, .token 3 3, .close, .close], _, _, _, ⟨_, _, rfl, rfl, rfl⟩, by decide, rfl,
    rfl, rfl, rfl, rfl, rfl⟩

end Syntree
