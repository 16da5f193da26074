import Verif.Proof.Listing
import Verif.Proof.Bridge

/-! Comparing trees. -/

namespace Syntree

variable {α : Type}

open Forest

/-- Element-wise comparison of two lists. -/
def listEq {β γ : Type} (eq : β → γ → Bool) : List β → List γ → Bool
  | [], [] => true
  | x :: l, y :: l' => eq x y && listEq eq l l'
  | _, _ => false

theorem iterEq_of_yields {σ τ β γ : Type} {next : NextFn σ β} {next' : NextFn τ γ}
    (eq : β → γ → Bool) {s : σ} {l : List β} (h : Yields next s l) :
    ∀ {s' : τ} {l' : List γ}, Yields next' s' l' → ∀ fuel, l.length < fuel →
      iterEq next next' eq fuel s s' = some (listEq eq l l') := by
  induction h with
  | done e =>
    intro s' l' h' fuel hf
    cases fuel with
    | zero => omega
    | succ fuel =>
      cases h' with
      | done e' => simp [iterEq, e, e', listEq]
      | item e' _ => simp [iterEq, e, e', listEq]
  | item e _ ih =>
    intro s' l' h' fuel hf
    cases fuel with
    | zero => omega
    | succ fuel =>
      simp only [List.length_cons] at hf
      cases h' with
      | done e' => simp [iterEq, e, e', listEq]
      | item e' h2 =>
        simp only [iterEq, e, e', listEq, ih h2 fuel (by omega)]
        split <;> simp [*]

theorem listEq_map {β γ δ : Type} [DecidableEq δ] {eq : β → γ → Bool} {f : β → δ} {g : γ → δ} :
    ∀ {l : List β} {l' : List γ},
    (∀ x ∈ l, ∀ y ∈ l', eq x y = decide (f x = g y)) →
    listEq eq l l' = decide (l.map f = l'.map g)
  | [], [], _ => by simp [listEq]
  | [], _ :: _, _ => by simp [listEq]
  | _ :: _, [], _ => by simp [listEq]
  | x :: l, y :: l', h => by
    rw [listEq, h x (by simp) y (by simp),
      listEq_map (fun x hx y hy => h x (by simp [hx]) y (by simp [hy]))]
    simp [Bool.decide_and]

/-- A depth-annotated list that does not continue the level `d`. -/
def Below {β : Type} (d : Nat) (A : List (Nat × β)) : Prop := ∀ p ∈ A.head?, p.1 < d

/-- The depth-annotated traversal determines the nested list. -/
theorem depths_inj_aux {β : Type} (F : Forest β) : ∀ (G : Forest β) (d : Nat)
    (A B : List (Nat × β)), Below d A → Below d B → F.depths d ++ A = G.depths d ++ B →
    F = G ∧ A = B := by
  induction F with
  | nil =>
    intro G d A B hA hB h
    cases G with
    | nil => exact ⟨rfl, h⟩
    | cons x k r =>
      simp only [depths, List.nil_append, List.cons_append] at h
      subst h
      exact absurd (hA _ rfl) (Nat.lt_irrefl d)
  | cons x k r ihk ihr =>
    intro G d A B hA hB h
    cases G with
    | nil =>
      simp only [depths, List.nil_append, List.cons_append] at h
      rw [← h] at hB
      exact absurd (hB _ rfl) (Nat.lt_irrefl d)
    | cons y k' r' =>
      simp only [depths, List.cons_append, List.append_assoc, List.cons.injEq, Prod.mk.injEq,
        true_and] at h
      obtain ⟨rfl, h⟩ := h
      have hb : ∀ (r : Forest β) (A : List (Nat × β)), Below d A →
          Below (d + 1) (r.depths d ++ A) := by
        intro r A hA p hp
        cases r with
        | nil => have := hA p (by simpa [depths] using hp); omega
        | cons z _ _ =>
          simp only [depths, List.cons_append, List.head?_cons, Option.mem_some_iff] at hp
          subst hp; simp
      obtain ⟨rfl, h2⟩ := ihk k' (d + 1) _ _ (hb r A hA) (hb r' B hB) h
      obtain ⟨rfl, h3⟩ := ihr r' d A B hA hB h2
      exact ⟨rfl, h3⟩

theorem depths_inj {β : Type} {F G : Forest β} {d : Nat} (h : F.depths d = G.depths d) : F = G :=
  (depths_inj_aux F G d [] [] (by simp [Below]) (by simp [Below]) (by simpa using h)).1

theorem depths_map {β γ : Type} (f : β → γ) (F : Forest β) (d : Nat) :
    (F.map f).depths d = (F.depths d).map fun p => (p.1, f p.2) := by
  induction F generalizing d with
  | nil => rfl
  | cons x k r ihk ihr => simp [Forest.map, depths, ihk, ihr]

theorem Represents.eq [DecidableEq α] {g g' : Bool} {t t' : Tree α} {F F' : Forest (Lab α)}
    (h : Represents g t F) (h' : Represents g' t' F') :
    t.eq t' = some (decide (F.content = F'.content)) := by
  unfold Tree.eq
  rw [iterEq_of_yields _ h.with_depths h'.with_depths]
  · congr 1
    have key : ∀ {g : Bool} {t : Tree α} {F : Forest (Lab α)}, Represents g t F →
        ∀ p ∈ F.depths 0, ∃ l, t.nodes[p.2.id]? = some l ∧ l.data = p.2.data ∧ l.span = p.2.span := by
      rintro g t F h ⟨d, x⟩ hx
      obtain ⟨anc, left, kids, right, _, hl⟩ := Loc.of_depths hx
      obtain ⟨l, hlr, hx⟩ := hl.links h.root
      exact ⟨_, hx, rfl, rfl⟩
    have e : listEq (fun (x y : Int × Nat) => x.1 == y.1 && nodeEq t.nodes x.2 t'.nodes y.2)
        ((F.depths 0).map fun p => ((p.1 : Int), p.2.id))
        ((F'.depths 0).map fun p => ((p.1 : Int), p.2.id)) =
        listEq (fun (p q : Nat × Lab α) => decide ((p.1, p.2.data, p.2.span) = (q.1, q.2.data, q.2.span)))
          (F.depths 0) (F'.depths 0) := by
      have h1 := key h
      have h2 := key h'
      generalize F.depths 0 = l1 at h1 ⊢
      generalize F'.depths 0 = l2 at h2 ⊢
      induction l1 generalizing l2 with
      | nil => cases l2 <;> rfl
      | cons p l1 ih =>
        cases l2 with
        | nil => rfl
        | cons q l2 =>
          simp only [List.map_cons, listEq]
          rw [ih (fun p hp => h1 p (by simp [hp])) l2 (fun p hp => h2 p (by simp [hp]))]
          congr 1
          obtain ⟨l, hl, e1, e2⟩ := h1 p (by simp)
          obtain ⟨l', hl', e1', e2'⟩ := h2 q (by simp)
          simp only [nodeEq, hl, hl', e1, e2, e1', e2', Prod.mk.injEq]
          rw [Bool.eq_iff_iff]
          simp only [Bool.and_eq_true, beq_iff_eq, decide_eq_true_eq]
          constructor
          · rintro ⟨a, b⟩; exact ⟨by omega, b⟩
          · rintro ⟨a, b⟩; exact ⟨by omega, b⟩
    rw [e, listEq_map (f := fun p => (p.1, p.2.data, p.2.span)) (g := fun p => (p.1, p.2.data, p.2.span))
      (by intros; rfl)]
    have e2 : ∀ F : Forest (Lab α), (F.depths 0).map (fun p => (p.1, p.2.data, p.2.span)) =
        F.content.depths 0 := fun F => by rw [Forest.content, depths_map]
    rw [e2, e2]
    rw [decide_eq_decide]
    exact ⟨depths_inj, fun h => by rw [h]⟩
  · rw [List.length_map]
    have : (F.depths 0).length = F.preorder.length := by
      rw [← depths_snd 0 F, List.length_map]
    rw [this, preorder_length]
    have := h.size
    omega

end Syntree
