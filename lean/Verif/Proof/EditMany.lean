import Verif.Proof.EditTree

/-! Several removals. -/

namespace Syntree

variable {α : Type} {fl : Flavor}

open Forest

/-- `Spaced`, level by level; `root` for the outermost level. -/
def spacedB {β : Type} (p : β → Bool) (root : Bool) : Forest β → Bool
  | .nil => true
  | .cons x k r =>
    (if p x then (match r with | .nil => root | .cons y _ _ => ! p y) else spacedB p false k) &&
      spacedB p root r

theorem spacedB_iff {β : Type} {p : β → Bool} (F : Forest β) : ∀ (root : Bool),
    spacedB p root F = true ↔
    (∀ anc left x kids right, Loc F anc left x kids right → (∀ a ∈ anc, p a = false) → p x = true →
      (root = true ∧ anc = [] ∧ right = .nil) ∨ ∃ y k r, right = .cons y k r ∧ p y = false) := by
  induction F with
  | nil =>
    intro root
    refine ⟨fun _ anc left x kids right hl => ?_, fun _ => rfl⟩
    have := hl.mem; simp [preorder] at this
  | cons x k r ihk ihr =>
    intro root
    simp only [spacedB, Bool.and_eq_true]
    rw [ihr root]
    constructor
    · rintro ⟨h1, h2⟩ anc left y kids right hl ha hp
      rcases hl.cases_cons with ⟨rfl, rfl, rfl, rfl, rfl⟩ | ⟨l1, h4, h5, h6⟩ | ⟨a1, rfl, h4⟩
      · rw [if_pos hp] at h1
        cases right with
        | nil => exact .inl ⟨h1, rfl, rfl⟩
        | cons z k' r' => exact .inr ⟨_, _, _, rfl, by simpa using h1⟩
      · exact h2 _ _ _ _ _ h4 ha hp
      · have hx : p x = false := ha x (by simp)
        simp only [hx, Bool.false_eq_true, if_false] at h1
        rcases (ihk false).1 h1 _ _ _ _ _ h4 (fun a h => ha a (by simp [h])) hp with ⟨h, _⟩ | h
        · simp at h
        · exact .inr h
    · intro h
      refine ⟨?_, fun anc left y kids right hl ha hp => ?_⟩
      · by_cases hp : p x = true
        · rw [if_pos hp]
          rcases h [] .nil x k r (.root rfl) (by simp) hp with ⟨h1, _, h2⟩ | ⟨y, k', r', h1, h2⟩
          · subst h2; exact h1
          · subst h1; simp [h2]
        · rw [if_neg hp, ihk false]
          intro anc left y kids right hl ha hp'
          rcases h _ _ _ _ _ (hl.in_kids (x := x) (r := r)) (by
            intro a h
            rcases List.mem_append.1 h with h | h
            · exact ha a h
            · rw [List.mem_singleton.1 h]; simpa using hp) hp' with ⟨_, h2, _⟩ | h1
          · simp at h2
          · exact .inr h1
      · obtain ⟨left', hl', _⟩ := hl.in_rest (x := x) (k := k)
        exact h _ _ _ _ _ hl' ha hp

theorem Forest.Spaced.of_check {β : Type} {p : β → Bool} {F : Forest β}
    (h : spacedB p true F = true) : F.Spaced p := by
  intro anc left x kids right hl ha hp
  rcases (spacedB_iff F true).1 h _ _ _ _ _ hl ha hp with ⟨_, h⟩ | h
  · exact .inl h
  · exact .inr h

theorem prune_size_le {β : Type} (p : β → Bool) (F : Forest β) : (F.prune p).size ≤ F.size := by
  induction F with
  | nil => exact Nat.le_refl _
  | cons x k r ihk ihr =>
    simp only [Forest.prune]
    split <;> simp only [Forest.size] <;> omega

theorem cuts_bounds {β : Type} {p : β → Bool} (F : Forest β) : ∀ (c j : Nat) (root : Bool),
    spacedB p root F = true → j ∈ F.cuts p c →
    c ≤ j ∧ j ≤ c + (F.prune p).size ∧ (root = false → j < c + (F.prune p).size) := by
  induction F with
  | nil => intro c j root _ h; simp [Forest.cuts] at h
  | cons x k r ihk ihr =>
    intro c j root hs hj
    simp only [spacedB, Bool.and_eq_true] at hs
    simp only [Forest.cuts] at hj
    simp only [Forest.prune]
    by_cases hp : p x = true
    · rw [if_pos hp] at hj hs ⊢
      rcases List.mem_cons.1 hj with rfl | hj
      · refine ⟨Nat.le_refl _, Nat.le_add_right _ _, fun hr => ?_⟩
        cases r with
        | nil => simp [hr] at hs
        | cons y k' r' =>
          simp only [Bool.not_eq_true'] at hs
          simp only [Forest.prune, hs.1, Forest.size]
          simp only [Bool.false_eq_true, if_false, Forest.size]
          omega
      · exact ihr c j root hs.2 hj
    · rw [if_neg hp] at hj hs ⊢
      simp only [Forest.size]
      rcases List.mem_append.1 hj with hj | hj
      · have := ihk _ _ false hs.1 hj
        have h3 := this.2.2 rfl
        refine ⟨by omega, by omega, fun _ => by omega⟩
      · have := ihr _ _ root hs.2 hj
        exact ⟨by omega, by omega, fun h => by have := this.2.2 h; omega⟩

theorem prune_ne_nil {β : Type} {p : β → Bool} {F : Forest β} (h : spacedB p false F = true)
    (hF : F ≠ .nil) : F.prune p ≠ .nil := by
  induction F with
  | nil => exact absurd rfl hF
  | cons x k r _ ihr =>
    simp only [spacedB, Bool.and_eq_true] at h
    simp only [Forest.prune]
    by_cases hp : p x = true
    · rw [if_pos hp] at h ⊢
      cases r with
      | nil => simp at h
      | cons y k' r' => exact ihr h.2 (by simp)
    · rw [if_neg hp]; simp

/-- The changes from `c` up to `hi` are these. -/
def Cut (S : List Nat) (c hi : Nat) (l : List Nat) : Prop := ∀ j, c ≤ j → j < hi → (j ∈ S ↔ j ∈ l)

theorem prune_steps {S : List Nat} {p : Lab α → Bool} (F : Forest (Lab α)) :
    (∀ (ctx : ECtx α) (n : Nest α) (hi : Nat), Room fl n (F.prune p) →
      n.count + F.size ≤ 2 ^ fl.width - 1 → spacedB p ctx.isEmpty F = true →
      n.count + (F.prune p).size ≤ hi → (ctx = [] → n.count + (F.prune p).size < hi) →
      Cut S n.count hi (F.cuts p n.count) →
      Steps fl S (EM.goto F ctx n) (EM.leave ctx (n.copied fl.ik (F.prune p)))) ∧
    (∀ x k r, F = .cons x k r → ∀ (ctx : ECtx α) (n : Nest α) (hi : Nat),
      Room fl n (.cons x (k.prune p) (r.prune p)) →
      n.count + F.size ≤ 2 ^ fl.width - 1 → spacedB p false k = true →
      spacedB p ctx.isEmpty r = true →
      n.count + 1 + (k.prune p).size + (r.prune p).size ≤ hi →
      (ctx = [] → n.count + 1 + (k.prune p).size + (r.prune p).size < hi) →
      Cut S (n.count + 1) hi (k.cuts p (n.count + 1) ++ r.cuts p (n.count + 1 + (k.prune p).size)) →
      ∃ m, EM.emit fl x k r ctx n = .ok m ∧
        Steps fl S m (EM.leave ctx (n.copied fl.ik (.cons x (k.prune p) (r.prune p))))) := by
  induction F with
  | nil =>
    refine ⟨fun ctx n hi _ _ _ _ _ _ => ?_, fun x k r h => by simp at h⟩
    simp only [Forest.prune, copied_nil]
    exact Steps.refl _
  | cons x k r ihk ihr =>
    have B : ∀ (ctx : ECtx α) (n : Nest α) (hi : Nat),
        Room fl n (.cons x (k.prune p) (r.prune p)) →
        n.count + (Forest.cons x k r).size ≤ 2 ^ fl.width - 1 → spacedB p false k = true →
        spacedB p ctx.isEmpty r = true →
        n.count + 1 + (k.prune p).size + (r.prune p).size ≤ hi →
        (ctx = [] → n.count + 1 + (k.prune p).size + (r.prune p).size < hi) →
        Cut S (n.count + 1) hi
          (k.cuts p (n.count + 1) ++ r.cuts p (n.count + 1 + (k.prune p).size)) →
        ∃ m, EM.emit fl x k r ctx n = .ok m ∧
          Steps fl S m (EM.leave ctx (n.copied fl.ik (.cons x (k.prune p) (r.prune p)))) := by
      intro ctx n hi hroom hcap hsk hsr hhi hhi0 hcut
      have hsz := prune_size_le p k
      simp only [Forest.size] at hcap
      have hr1 : Room fl n (.cons x (k.prune p) .nil) := Room.left (G := r.prune p) hroom
      have hr2 : Room fl (n.copied fl.ik (.cons x (k.prune p) .nil)) (r.prune p) :=
        Room.right (F := .cons x (k.prune p) .nil) hroom
      have hc : (n.copied fl.ik (.cons x (k.prune p) .nil)).count =
          n.count + 1 + (k.prune p).size := by
        rw [copied_count]; simp only [Forest.size]; omega
      have s2 := ihr.1 ctx (n.copied fl.ik (.cons x (k.prune p) .nil)) hi hr2
        (by rw [hc]; omega) hsr (by rw [hc]; exact hhi) (by rw [hc]; exact hhi0) (by
          rw [hc]
          intro j h1 h2
          rw [hcut j (by omega) h2, List.mem_append]
          refine ⟨fun h => h.resolve_left fun h => ?_, .inr⟩
          have := (cuts_bounds k _ _ _ hsk h).2.2 rfl
          omega)
      rw [copied_append, cons_append, nil_append] at s2
      by_cases hk : k = .nil
      · subst hk
        simp only [Forest.prune] at hr1 s2 ⊢
        obtain ⟨m, h1, h2⟩ := emit_steps (S := S) (R := r) (ctx := ctx) hr1
          (fun j _ => by simp only [Forest.size]; omega) (copy_steps .nil)
        exact ⟨m, h1, h2.trans s2⟩
      · rw [emit_ctx hk]
        refine ⟨_, rfl, ?_⟩
        have hpk := prune_ne_nil hsk hk
        have s1 := ihk.1 ((x, k, r) :: ctx) (n.addOpen x.data (Span.point n.cursor))
          (n.count + 1 + (k.prune p).size) (hr1.kids hpk)
          (by show n.count + 1 + k.size ≤ _; omega) hsk (Nat.le_refl _) (fun h => by simp at h) (by
            show Cut S (n.count + 1) _ (k.cuts p (n.count + 1))
            intro j h1 h2
            rw [hcut j h1 (by omega), List.mem_append]
            refine ⟨fun h => h.resolve_right fun h => ?_, .inl⟩
            have := (cuts_bounds r _ _ _ hsr h).1
            omega)
        rw [goto_cons_nil, ← copied_inner _ _ _ hpk] at s1
        exact s1.trans s2
    refine ⟨?_, fun x' k' r' e => by
      simp only [Forest.cons.injEq] at e
      obtain ⟨rfl, rfl, rfl⟩ := e
      exact B⟩
    intro ctx n hi hroom hcap hs hhi hhi0 hcut
    simp only [spacedB, Bool.and_eq_true] at hs
    have hnf : ¬ n.full fl = true := by
      rw [not_full_iff]
      simp only [Forest.size] at hcap
      omega
    simp only [Forest.prune] at hroom hhi hhi0 ⊢
    simp only [Forest.cuts] at hcut
    by_cases hp : p x = true
    · simp only [hp, if_true] at hroom hhi hhi0 hs hcut ⊢
      cases r with
      | nil =>
        have hctx : ctx = [] := by simpa using hs.1
        subst hctx
        have hin : n.count ∈ S := (hcut n.count (Nat.le_refl _) (by have := hhi0 rfl; omega)).2 (by simp)
        simp only [Forest.prune, copied_nil]
        apply Steps.one
        unfold EM.step
        rw [if_neg hnf, if_pos hin]
        rfl
      | cons y k' r' =>
        have hpy : p y = false := by simpa using hs.1
        have e : (Forest.cons y k' r').prune p = .cons y (k'.prune p) (r'.prune p) := by
          simp [Forest.prune, hpy]
        have hs2 := hs.2
        simp only [spacedB, hpy, Bool.false_eq_true, if_false, Bool.and_eq_true] at hs2
        rw [e] at hroom hhi hhi0 ⊢
        simp only [Forest.size] at hhi hhi0
        have hin : n.count ∈ S := (hcut n.count (Nat.le_refl _) (by omega)).2 (by simp)
        obtain ⟨m, h1, h2⟩ := ihr.2 y k' r' rfl ctx n hi hroom
          (by simp only [Forest.size] at hcap ⊢; omega) hs2.1 hs2.2 (by omega)
          (fun h => by have := hhi0 h; omega) (by
            intro j h1 h2
            rw [hcut j (by omega) h2]
            simp only [Forest.cuts, hpy, Bool.false_eq_true, if_false, List.mem_cons]
            constructor
            · rintro (h | h)
              · omega
              · exact h
            · exact .inr)
        refine (Steps.one ?_).trans h2
        unfold EM.step
        rw [if_neg hnf, if_pos hin]
        exact h1
    · simp only [hp, if_false] at hroom hhi hhi0 hs hcut ⊢
      simp only [Bool.false_eq_true, if_false, Forest.size] at hroom hhi hhi0 hs hcut ⊢
      have hnin : ¬ n.count ∈ S := by
        rw [hcut n.count (Nat.le_refl _) (by omega), List.mem_append]
        rintro (h | h)
        · have := (cuts_bounds k _ _ _ hs.1 h).1
          omega
        · have := (cuts_bounds r _ _ _ hs.2 h).1
          omega
      obtain ⟨m, h1, h2⟩ := B ctx n hi hroom hcap hs.1 hs.2 (by omega)
        (fun h => by have := hhi0 h; omega) (fun j h1 h2 => hcut j (by omega) h2)
      refine (Steps.one ?_).trans h2
      unfold EM.step
      rw [if_neg hnf, if_neg hnin]
      exact h1

/-- Several removals, all registered with the ids the nodes would have in the result. -/
theorem machine_many {c : ChangeSet} {F : Forest (Lab α)} {p : Lab α → Bool} (hs : F.Spaced p)
    (hc : ∀ j, j ≤ (F.prune p).size → (j ∈ c.changes ↔ j ∈ F.cuts p 0)) (hcap : F.size ≤ 2 ^ fl.width - 1) :
    (Room fl (Nest.init : Nest α) (F.prune p) →
      c.machine fl F = .ok (Nest.init.copied fl.ik (F.prune p))) ∧
    (¬ Room fl (Nest.init : Nest α) (F.prune p) → c.machine fl F = .error .overflow) := by
  apply machine_exact
  intro w hr
  apply machine_of_steps
  have hw : 2 ^ fl.width ≤ 2 ^ (fl.big w).width :=
    Nat.pow_le_pow_right (by omega) (Nat.le_add_right _ _)
  have := (prune_steps (fl := fl.big w) (S := c.changes) (p := p) F).1 [] Nest.init
    ((F.prune p).size + 1) hr (by show 0 + _ ≤ _; omega)
    ((spacedB_iff F true).2 fun anc left x kids right hl ha hp => by
      rcases hs _ _ _ _ _ hl ha hp with h | h
      · exact .inl ⟨rfl, h⟩
      · exact .inr h) (by show 0 + _ ≤ _; omega) (fun _ => by show 0 + _ < _; omega)
    (fun j _ h => hc j (by omega))
  rw [big_copied] at this
  exact this

end Syntree
