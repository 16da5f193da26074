import Verif.Model.Value
import Verif.Proof.Output
import Verif.Props.Apart

/-!
# Property C84: comparing and showing spans and errors

`showNat` (`Spec/Output.lean`) is decimal notation.
-/

namespace Syntree

open Forest

variable {α : Type} {fl : Flavor} {ops : List (Op α)} {t : Tree α} {F : Forest (Lab α)}

/-- C84: `==` on spans is equality, and `cmp` is a total order that agrees with it: first by start, then by end. -/
theorem C84_span_order (a b c : Span) :
    (a.eqSpan b = true ↔ a = b) ∧ (a.cmp b = .eq ↔ a.eqSpan b = true) ∧ (a.cmp b).swap = b.cmp a ∧
    (a.cmp b = .lt ↔ a.start < b.start ∨ a.start = b.start ∧ a.stop < b.stop) ∧
    (a.cmp b ≠ .gt → b.cmp c ≠ .gt → a.cmp c ≠ .gt) := by
  have lt_iff : ∀ a b : Span, a.cmp b = .lt ↔ a.start < b.start ∨ a.start = b.start ∧ a.stop < b.stop := by
    intro a b
    simp only [Span.cmp]
    rcases Nat.lt_trichotomy a.start b.start with h | h | h
    · rw [Nat.compare_eq_lt.2 h]; simp; omega
    · rw [Nat.compare_eq_eq.2 h]
      show compare a.stop b.stop = .lt ↔ _
      rw [Nat.compare_eq_lt]; omega
    · rw [Nat.compare_eq_gt.2 h]; simp; omega
  have gt_iff : ∀ a b : Span, a.cmp b = .gt ↔ b.start < a.start ∨ a.start = b.start ∧ b.stop < a.stop := by
    intro a b
    simp only [Span.cmp]
    rcases Nat.lt_trichotomy a.start b.start with h | h | h
    · rw [Nat.compare_eq_lt.2 h]; simp; omega
    · rw [Nat.compare_eq_eq.2 h]
      show compare a.stop b.stop = .gt ↔ _
      rw [Nat.compare_eq_gt]; omega
    · rw [Nat.compare_eq_gt.2 h]; simp; omega
  have eq_iff : ∀ a b : Span, a.cmp b = .eq ↔ a.start = b.start ∧ a.stop = b.stop := by
    intro a b
    cases h : a.cmp b with
    | lt => have := (lt_iff a b).1 h; simp; omega
    | gt => have := (gt_iff a b).1 h; simp; omega
    | eq =>
      have h1 := mt (lt_iff a b).2 (by rw [h]; simp)
      have h2 := mt (gt_iff a b).2 (by rw [h]; simp)
      simp; omega
  refine ⟨?_, ?_, ?_, lt_iff a b, ?_⟩
  · cases a; cases b; simp [Span.eqSpan]
  · rw [eq_iff]; simp [Span.eqSpan]
  · cases h : b.cmp a with
    | lt => rw [(gt_iff a b).2 (by have := (lt_iff b a).1 h; omega)]; rfl
    | gt => rw [(lt_iff a b).2 (by have := (gt_iff b a).1 h; omega)]; rfl
    | eq => rw [(eq_iff a b).2 (by have := (eq_iff b a).1 h; omega)]; rfl
  · simp only [ne_eq, gt_iff]; omega

example : Span.cmp ⟨0, 3⟩ ⟨0, 4⟩ = .lt ∧ Span.cmp ⟨1, 2⟩ ⟨0, 9⟩ = .gt ∧ Span.cmp ⟨0, 3⟩ ⟨0, 3⟩ = .eq := by decide

/-- C84: if only the cursor placed the nodes (and no token was lost), then a walk visits the childless nodes in the
order of their spans; those with a span that is not empty in strictly ascending order. -/
theorem C84_tokens_sorted (h : Built fl ops t F) (hc : ∀ op ∈ ops, op.cursorDriven = true)
    (hsp : Spare fl t.len (Sys.init.run fl ops).2) {w : List Nat}
    (hw : Yields (Walk.next t.nodes) t.walk w) :
    (w.filter (nodeIsEmpty t.nodes)).Pairwise fun i j =>
      ∃ si sj, nodeSpan t.nodes i = some si ∧ nodeSpan t.nodes j = some sj ∧ si.cmp sj ≠ .gt ∧
        (si.isEmpty = false → si.cmp sj = .lt) := by
  have hr := h.represents
  have key := C83_nested_or_apart h hc hsp hw
  have e := hw.det hr.walk
  subst e
  refine (key.filter _).imp_of_mem ?_
  rintro i j hi hj ⟨si, sj, above, h1, h2, h3, h4⟩
  simp only [List.mem_filter] at hi hj
  have hlt : ∀ k, k ∈ F.ids → k < t.len := fun k hk => by
    rw [hr.perm.mem_iff] at hk; simpa [Tree.len] using hk
  have hle : ∀ (k : Nat) (s : Span), k < t.len → nodeSpan t.nodes k = some s → s.start ≤ s.stop := by
    intro k s hk hs
    obtain ⟨sp, g1, g2, _⟩ := C31_siblings_tile h hc hsp hk
    rw [hs] at g1
    cases g1; exact g2
  have hna : i ∉ above := by
    intro ha
    obtain ⟨anc, left, x, kids, right, rfl, hl⟩ := (C17_links_match_place (.built h)).1 j (hlt j hj.1)
    have e := h3.det (hr.ancestors hl)
    simp only [List.cons.injEq, true_and] at e
    subst e
    obtain ⟨a, hb, rfl⟩ := List.mem_map.1 ha
    obtain ⟨anc', left', k', right', hl', hm⟩ := hl.below_anc hb
    have hk : k' ≠ .nil := by rintro rfl; simp [Forest.preorder] at hm
    have := hi.2
    obtain ⟨_, _, _, _, _, _, g7, g8, _⟩ := (C17_links_match_place (.built h)).2.2 hl'
    simp_all
  rw [if_neg hna] at h4
  have a1 := hle i si (hlt i hi.1) h1
  have a2 := hle j sj (hlt j hj.1) h2
  refine ⟨si, sj, h1, h2, ?_, ?_⟩
  · have := (C84_span_order sj si si).2.2.2.1
    rw [← (C84_span_order sj si si).2.2.1]
    intro hg
    have hl : sj.cmp si = .lt := by cases hh : sj.cmp si <;> rw [hh] at hg <;> simp_all
    have := this.1 hl
    omega
  · intro hne
    refine (C84_span_order si sj sj).2.2.2.1.2 ?_
    simp only [Span.isEmpty, beq_eq_false_iff_ne, ne_eq] at hne
    omega

/-- The childless nodes of `demoTree`, the last one with the span `3..4`. -/
example : ∃ w, Yields (Walk.next demoTree.nodes) demoTree.walk w ∧
    (w.filter (nodeIsEmpty demoTree.nodes)) = [1, 2, 4, 5] ∧
    (w.filter (nodeIsEmpty demoTree.nodes)).Pairwise fun i j =>
      ∃ si sj, nodeSpan demoTree.nodes i = some si ∧ nodeSpan demoTree.nodes j = some sj ∧ si.cmp sj ≠ .gt ∧
        (si.isEmpty = false → si.cmp sj = .lt) :=
  ⟨_, demo_made.represents.walk, rfl, C84_tokens_sorted demo_built (by decide) (Or.inl (by decide))
    demo_made.represents.walk⟩

/-- C84: `{}` and `{:?}` of a span are different for different spans. -/
theorem C84_span_shown (a b : Span) :
    (a.display showNat = b.display showNat ↔ a = b) ∧
    ((a.debug showNat).plain = (b.debug showNat).plain ↔ a = b) := by
  refine ⟨⟨fun h => ?_, fun h => by rw [h]⟩, ⟨fun h => ?_, fun h => by rw [h]⟩⟩
  · have h1 := congrArg String.toList h
    simp only [Span.display, String.toList_append, showNat_toList, List.append_assoc] at h1
    obtain ⟨e1, h2⟩ := cut_num (by intro c hc; simp at hc; subst hc; rfl)
      (by intro c hc; simp at hc; subst hc; rfl) h1
    have e2 := spell_inj (List.append_cancel_left h2)
    cases a; cases b; simp_all
  · have h1 := congrArg String.toList h
    simp only [Span.debug, Doc.plain, String.toList_append, showNat_toList, List.append_assoc] at h1
    have h1 := List.append_cancel_left (List.append_cancel_left h1)
    obtain ⟨e1, h2⟩ := cut_num (by intro c hc; simp at hc; subst hc; rfl)
      (by intro c hc; simp at hc; subst hc; rfl) h1
    have h2 := List.append_cancel_left h2
    obtain ⟨e2, _⟩ := cut_num (by intro c hc; simp at hc; subst hc; rfl)
      (by intro c hc; simp at hc; subst hc; rfl) h2
    cases a; cases b; simp_all

example : (Span.mk 1 12).display showNat ≠ (Span.mk 11 2).display showNat := by
  rw [ne_eq, (C84_span_shown _ _).1]; decide

/-- The start of the message tells the errors apart. -/
def Failure.tag {ε : Type} : Failure ε → List Char
  | .closeError => ['n', 'o', ' ']
  | .buildError => ['t', 'r', 'e']
  | .closeAtError => ['t', 'r', 'y']
  | .overflow => ['n', 'u', 'm']
  | .missingNode _ => ['m', 'i', 's']
  | .flavor _ => []

theorem tag_read {ε : Type} (showError : ε → String) (x : Failure ε) (hx : x.source = none) :
    (x.display showNat showError).toList.take 3 = x.tag := by
  cases x with
  | closeError => exact show "no node being built".toList.take 3 = ['n', 'o', ' '] by decide
  | buildError => exact show "tree is currently being built".toList.take 3 = ['t', 'r', 'e'] by decide
  | closeAtError =>
    exact show "trying to close a node which is not a sibling of the checkpoint being closed".toList.take 3 = ['t', 'r', 'y']
      by decide
  | overflow => exact show "numerical overflow".toList.take 3 = ['n', 'u', 'm'] by decide
  | missingNode p =>
    have e : (Failure.missingNode p : Failure ε).display showNat showError =
      "missing node with id `" ++ showNat p ++ "`" := rfl
    rw [e, String.toList_append, String.toList_append,
      show "missing node with id `".toList = 'm' :: 'i' :: 's' :: "sing node with id `".toList by simp]
    simp [Failure.tag]
  | flavor => cases hx

theorem missing_read {ε : Type} {showError : ε → String} {p q : Nat}
    (h : (Failure.missingNode p : Failure ε).display showNat showError =
      (Failure.missingNode q : Failure ε).display showNat showError) : p = q := by
  have key : ∀ s : String, s ++ showNat p ++ "`" = s ++ showNat q ++ "`" → p = q := by
    intro s h
    have h2 := congrArg String.toList h
    rw [String.toList_append, String.toList_append, String.toList_append, String.toList_append,
      showNat_toList, showNat_toList, List.append_assoc, List.append_assoc] at h2
    have h3 := List.append_cancel_left h2
    exact (cut_num (by intro c hc; simp at hc; subst hc; rfl)
      (by intro c hc; simp at hc; subst hc; rfl) h3).1
  exact key _ h

/-- C84: the message of an error of the library tells which one it is (and which node is missing); an error of the
flavor is shown as it is, and it is what `source` returns. -/
theorem C84_error_shown {ε : Type} (showError : ε → String) :
    (∀ x y : Failure ε, x.source = none → y.source = none →
      (x.display showNat showError = y.display showNat showError ↔ x = y)) ∧
    (∀ e, (Failure.from e).display showNat showError = showError e) ∧
    ∀ (x : Failure ε) (e : ε), x.source = some e ↔ x = Failure.from e := by
  refine ⟨fun x y hx hy => ⟨fun h => ?_, fun h => by rw [h]⟩, fun _ => rfl, fun x e => ?_⟩
  · have h1 : x.tag = y.tag := by rw [← tag_read showError x hx, ← tag_read showError y hy, h]
    cases x <;> cases y <;> first
      | rfl
      | (cases hx; done)
      | (cases hy; done)
      | exact congrArg _ (missing_read h)
      | (simp [Failure.tag] at h1; done)
  · cases x <;> simp [Failure.source, Failure.from]

/-- The example in the documentation of `MissingNode`, and a missing node with another id. -/
example : (Failure.missingNode 0 : Failure Nat).display showNat showNat ≠
    (Failure.missingNode 10 : Failure Nat).display showNat showNat := by
  rw [ne_eq, (C84_error_shown _).1 _ _ rfl rfl]; decide

end Syntree
