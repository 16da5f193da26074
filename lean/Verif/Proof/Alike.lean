import Verif.Spec.Alike
import Verif.Proof.EditExact
import Verif.Spec.Print

/-! Nested lists with the same content, matched element by element. -/

namespace Syntree

open Forest

variable {α β γ : Type}

theorem Forest.map_app (f : β → γ) : ∀ (F G : Forest β), (F ++ G).map f = F.map f ++ G.map f
  | .nil, _ => rfl
  | .cons x k r, G => by
    show Forest.cons (f x) (k.map f) ((r ++ G).map f) = _
    rw [Forest.map_app f r G]; rfl

theorem Forest.tops_mapped (f : β → γ) : ∀ F : Forest β, (F.map f).tops = F.tops.map f
  | .nil => rfl
  | .cons x k r => by simp [Forest.map, Forest.tops, Forest.tops_mapped f r]

theorem Forest.preorder_mapped (f : β → γ) : ∀ F : Forest β, (F.map f).preorder = F.preorder.map f
  | .nil => rfl
  | .cons x k r => by
    simp [Forest.map, Forest.preorder, Forest.preorder_mapped f k, Forest.preorder_mapped f r]

theorem Forest.map_split (f : β → γ) : ∀ (Z : Forest β) {left : Forest γ} {x : γ} {kids right : Forest γ},
    Z.map f = left ++ .cons x kids right →
    ∃ left' x' kids' right', Z = left' ++ .cons x' kids' right' ∧ left = left'.map f ∧ x = f x' ∧
      kids = kids'.map f ∧ right = right'.map f
  | .nil, left, x, kids, right, h => by cases left <;> exact absurd h (by intro h; cases h)
  | .cons z k r, .nil, x, kids, right, h => by
    have h : Forest.cons (f z) (k.map f) (r.map f) = .cons x kids right := h
    cases h
    exact ⟨.nil, z, k, r, rfl, rfl, rfl, rfl, rfl⟩
  | .cons z k r, .cons y k' l', x, kids, right, h => by
    have h : Forest.cons (f z) (k.map f) (r.map f) = .cons y k' (l' ++ .cons x kids right) := h
    injection h with h1 h2 h3
    obtain ⟨a, b, c, d, e1, e2, e3, e4, e5⟩ := Forest.map_split f r h3
    refine ⟨.cons z k a, b, c, d, ?_, ?_, e3, e4, e5⟩
    · rw [e1]; rfl
    · rw [e2, ← h1, ← h2]; rfl

theorem Forest.Loc.unmap {f : β → γ} {Z : Forest β} {anc : List γ} {left kids right : Forest γ} {x : γ}
    (h : Loc (Z.map f) anc left x kids right) :
    ∃ anc' left' x' kids' right', Loc Z anc' left' x' kids' right' ∧ anc = anc'.map f ∧
      left = left'.map f ∧ x = f x' ∧ kids = kids'.map f ∧ right = right'.map f := by
  induction h with
  | root e =>
    obtain ⟨a, b, c, d, e1, e2, e3, e4, e5⟩ := Forest.map_split f Z e
    exact ⟨[], a, b, c, d, .root e1, rfl, e2, e3, e4, e5⟩
  | child _ e ih =>
    obtain ⟨anc', l', p', k', r', h1, e1, _, e3, e4, _⟩ := ih
    rw [e4] at e
    obtain ⟨a, b, c, d, f1, f2, f3, f4, f5⟩ := Forest.map_split f k' e
    exact ⟨p' :: anc', a, b, c, d, .child h1 f1, by rw [e1, e3]; rfl, f2, f3, f4, f5⟩

theorem Forest.Loc.mapped (f : β → γ) {Z : Forest β} {anc : List β} {left kids right : Forest β} {x : β}
    (h : Loc Z anc left x kids right) :
    Loc (Z.map f) (anc.map f) (left.map f) (f x) (kids.map f) (right.map f) := by
  induction h with
  | root e => exact .root (by rw [e, Forest.map_app]; rfl)
  | child _ e ih => exact .child ih (by rw [e, Forest.map_app]; rfl)

/-- Two nested lists with the same content are two views of one list of pairs. -/
theorem content_zip : ∀ {F F' : Forest (Lab α)}, F.content = F'.content →
    ∃ Z : Forest (Lab α × Lab α), Z.map Prod.fst = F ∧ Z.map Prod.snd = F' ∧
      ∀ z ∈ Z.preorder, z.1.data = z.2.data ∧ z.1.span = z.2.span
  | .nil, .nil, _ => ⟨.nil, rfl, rfl, by simp [Forest.preorder]⟩
  | .nil, .cons .., h => by simp [Forest.content, Forest.map] at h
  | .cons .., .nil, h => by simp [Forest.content, Forest.map] at h
  | .cons x k r, .cons x' k' r', h => by
    simp only [Forest.content, Forest.map, Forest.cons.injEq, Prod.mk.injEq] at h
    obtain ⟨⟨h0, h1⟩, h2, h3⟩ := h
    obtain ⟨K, e1, e2, e3⟩ := content_zip (F := k) (F' := k') h2
    obtain ⟨R, f1, f2, f3⟩ := content_zip (F := r) (F' := r') h3
    refine ⟨.cons (x, x') K R, by simp [Forest.map, e1, f1], by simp [Forest.map, e2, f2], ?_⟩
    intro z hz
    simp only [Forest.preorder, List.mem_cons, List.mem_append] at hz
    rcases hz with rfl | hz | hz
    · exact ⟨h0, h1⟩
    · exact e3 z hz
    · exact f3 z hz

theorem alike_nil {F F' : Forest (Lab α)} (h : F.content = F'.content) : F = .nil ↔ F' = .nil := by
  cases F <;> cases F' <;> simp_all [Forest.content, Forest.map]

theorem alike_size : ∀ {F F' : Forest (Lab α)}, F.content = F'.content → F.size = F'.size := by
  intro F
  induction F with
  | nil => intro F' h; cases F' <;> simp_all [Forest.content, Forest.map]
  | cons x k r ihk ihr =>
    intro F' h
    cases F' with
    | nil => simp [Forest.content, Forest.map] at h
    | cons x' k' r' =>
      simp only [Forest.content, Forest.map, Forest.cons.injEq] at h
      simp only [Forest.size, ihk (F' := k') h.2.1, ihr (F' := r') h.2.2]

theorem alike_literal : ∀ {F F' : Forest (Lab α)}, F.content = F'.content → F.literal = F'.literal := by
  intro F
  induction F with
  | nil => intro F' h; cases F' <;> simp_all [Forest.content, Forest.map]
  | cons x k r ihk ihr =>
    intro F' h
    cases F' with
    | nil => simp [Forest.content, Forest.map] at h
    | cons x' k' r' =>
      simp only [Forest.content, Forest.map, Forest.cons.injEq, Prod.mk.injEq] at h
      obtain ⟨⟨h0, h1⟩, h2, h3⟩ := h
      have hk := ihk (F' := k') h2
      have hr := ihr (F' := r') h3
      cases k with
      | nil =>
        cases k' with
        | nil => simp only [Forest.literal, h0, h1, hr]
        | cons => simp [Forest.map] at h2
      | cons =>
        cases k' with
        | nil => simp [Forest.map] at h2
        | cons => simp only [Forest.literal, h0, hr] at hk ⊢; rw [hk]

/-- `modify` does the same with nested lists of the same content. -/
theorem Edited.content {S : List Nat} {now cut : Bool} {c : Nat} {F G : Forest (Lab α)}
    (h : Edited S now c F G cut) : ∀ {F' : Forest (Lab α)}, F.content = F'.content →
    ∃ G', Edited S now c F' G' cut ∧ G.content = G'.content := by
  induction h with
  | nil =>
    intro F' e
    cases F' with
    | nil => exact ⟨.nil, .nil, rfl⟩
    | cons => simp [Forest.content, Forest.map] at e
  | @skip c x y k k' r G cut hc _ ih =>
    intro F' e
    rcases F' with _ | ⟨x1, k1, _ | ⟨y1, k1', r1⟩⟩
    · simp [Forest.content, Forest.map] at e
    · simp [Forest.content, Forest.map] at e
    · have e' : (Forest.cons y k' r).content = (Forest.cons y1 k1' r1).content := by
        simp only [Forest.content, Forest.map, Forest.cons.injEq] at e ⊢; exact e.2.2
      obtain ⟨G', h1, h2⟩ := ih e'
      exact ⟨G', .skip hc h1, h2⟩
  | @last c x k hc =>
    intro F' e
    rcases F' with _ | ⟨x1, k1, _ | ⟨y1, k1', r1⟩⟩
    · simp [Forest.content, Forest.map] at e
    · exact ⟨.nil, .last hc, rfl⟩
    · simp [Forest.content, Forest.map] at e
  | @keep c x k r G cut hc _ ih =>
    intro F' e
    rcases F' with _ | ⟨x1, k1, r1⟩
    · simp [Forest.content, Forest.map] at e
    · obtain ⟨G', h1, h2⟩ := ih e
      exact ⟨G', .keep hc h1, h2⟩
  | @leaf c x r G cut _ ih =>
    intro F' e
    rcases F' with _ | ⟨x1, _ | _, r1⟩
    · simp [Forest.content, Forest.map] at e
    · simp only [Forest.content, Forest.map, Forest.cons.injEq] at e
      obtain ⟨G', h1, h2⟩ := ih (F' := r1) e.2.2
      exact ⟨.cons x1 .nil G', .leaf h1, by
        simp only [Forest.content] at h2
        simp only [Forest.content, Forest.map, Forest.cons.injEq]; exact ⟨e.1, trivial, h2⟩⟩
    · simp [Forest.content, Forest.map] at e
  | @node c x k r K G cut hk h1 h2 ih1 ih2 =>
    intro F' e
    rcases F' with _ | ⟨x1, k1, r1⟩
    · simp [Forest.content, Forest.map] at e
    · simp only [Forest.content, Forest.map, Forest.cons.injEq] at e
      obtain ⟨K', a1, a2⟩ := ih1 (F' := k1) e.2.1
      obtain ⟨G', b1, b2⟩ := ih2 (F' := r1) e.2.2
      rw [alike_size a2] at b1
      refine ⟨.cons x1 K' G', .node ?_ a1 b1, ?_⟩
      · intro hn; exact hk ((alike_nil (F := k) (F' := k1) e.2.1).2 hn)
      · simp only [Forest.content] at a2 b2
        simp only [Forest.content, Forest.map, Forest.cons.injEq]; exact ⟨e.1, a2, b2⟩
  | @again c x k r K G cut hk h1 h2 ih1 ih2 =>
    intro F' e
    rcases F' with _ | ⟨x1, k1, r1⟩
    · simp [Forest.content, Forest.map] at e
    · have e0 := e
      simp only [Forest.content, Forest.map, Forest.cons.injEq, Prod.mk.injEq] at e
      obtain ⟨K', a1, a2⟩ := ih1 (F' := k1) e.2.1
      obtain ⟨G', b1, b2⟩ := ih2 (F' := .cons x1 k1 r1) e0
      rw [alike_size a2] at b1
      refine ⟨.cons ⟨x1.id, x1.data, ⟨0, 0⟩⟩ K' G', .again ?_ a1 b1, ?_⟩
      · intro hn; exact hk ((alike_nil (F := k) (F' := k1) e.2.1).2 hn)
      · simp only [Forest.content] at a2 b2
        simp only [Forest.content, Forest.map, Forest.cons.injEq, Prod.mk.injEq]
        exact ⟨⟨e.1.1, trivial⟩, a2, b2⟩

/-- What is printed does not depend on the ids. -/
theorem linesOf_content {line : Nat → Lab α → Bool → String}
    (hline : ∀ d x y b, x.data = y.data → x.span = y.span → line d x b = line d y b) :
    ∀ (d : Nat) {F F' : Forest (Lab α)}, F.content = F'.content → linesOf line d F = linesOf line d F' := by
  intro d F
  induction F generalizing d with
  | nil => intro F' h; cases F' <;> simp_all [Forest.content, Forest.map]
  | cons x k r ihk ihr =>
    intro F' h
    cases F' with
    | nil => simp [Forest.content, Forest.map] at h
    | cons x' k' r' =>
      simp only [Forest.content, Forest.map, Forest.cons.injEq, Prod.mk.injEq] at h
      obtain ⟨⟨h0, h1⟩, h2, h3⟩ := h
      have hn : k.isNil = k'.isNil := by
        cases k <;> cases k' <;> simp_all [Forest.map, Forest.isNil]
      simp only [linesOf, hn, hline d x x' _ h0 h1, ihk (d + 1) (F' := k') h2, ihr d (F' := r') h3]

end Syntree
