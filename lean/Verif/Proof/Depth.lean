import Verif.Model.Depth
import Verif.Proof.OwnRead

/-! Depths stay in the range of `isize`. -/

namespace Syntree

variable {α : Type} {nodes : Slice α} {m : Nat}

/-- What a walk still has to return keeps its depth in range. -/
def InRange (m : Nat) (w : WalkEvents) (l : List (Int × Event × Nat)) : Prop :=
  w.depth + (ins l).length < m ∧
  -(m : Int) < w.depth - (outs l).length + (match w.node with | some (_, .up) => 1 | _ => 0)

theorem Rest.inRange {w w' : WalkEvents} {e : Event} {n : Nat} {l : List (Int × Event × Nat)}
    (he : WalkEvents.next nodes w = (w', .some (e, n))) (hr : Rest nodes w' l)
    (hi : InRange m w ((w.depth, e, n) :: l)) :
    WalkEvents.nextIn m nodes w = (w', .some (e, n)) ∧ (w'.node = none ∨ InRange m w' l) := by
  obtain ⟨node, D⟩ := w
  cases node with
  | none => simp [WalkEvents.next] at he
  | some p =>
    obtain ⟨n0, e0⟩ := p
    simp only [WalkEvents.next] at he
    cases hl : nodes[n0]? with
    | none => simp [hl] at he
    | some links =>
      simp only [hl, Prod.mk.injEq, Got.some.injEq] at he
      obtain ⟨hw, rfl, rfl⟩ := he
      subst hw
      obtain ⟨h1, h2⟩ := hi
      simp only at h1 h2
      simp only [WalkEvents.nextIn, hl]
      by_cases hu : e0 = .up
      · subst hu
        rw [ins_up] at h1
        rw [outs_up] at h2
        simp only [List.length_cons] at h2
        simp only [WalkEvents.step, WalkEvents.stepIn]
        cases hn : links.next with
        | some nx =>
          simp only [true_and]
          right
          exact ⟨by simp only; omega, by simp only; omega⟩
        | none =>
          have hin : InIsize m (D - 1) := ⟨by omega, by omega⟩
          simp only [checkedIsize, if_pos hin]
          cases hp : links.parent with
          | none => simp
          | some q =>
            simp only [true_and]
            right
            exact ⟨by simp only; omega, by simp only; omega⟩
      · rw [ins_other _ hu] at h1
        rw [outs_other _ hu] at h2
        simp only [List.length_cons] at h1
        have h2' : -(m : Int) < D - (outs l).length := by
          cases e0 <;> simp_all
        have hs : WalkEvents.step D links e0 = (match links.first with
            | some first => (D + 1, some (first, .down))
            | none => match links.next with
              | some next => (D, some (next, .next))
              | none => (D - 1, match links.parent with
                | none => none
                | some p => some (p, .up)) : Int × Option (Nat × Event)) := by
          cases e0 <;> first | exact absurd rfl hu | rfl
        have hs' : WalkEvents.stepIn m D links e0 = (match links.first with
            | some first => match checkedIsize m (D + 1) with
              | none => (D, none)
              | some depth => (depth, some (first, .down))
            | none => match links.next with
              | some next => (D, some (next, .next))
              | none => match checkedIsize m (D - 1) with
                | none => (D, none)
                | some depth => match links.parent with
                  | none => (depth, none)
                  | some p => (depth, some (p, .up)) : Int × Option (Nat × Event)) := by
          cases e0 <;> first | exact absurd rfl hu | rfl
        rw [hs, hs']
        cases hf : links.first with
        | some f =>
          have hin : InIsize m (D + 1) := ⟨by omega, by omega⟩
          simp only [checkedIsize, if_pos hin, true_and]
          right
          exact ⟨by simp only; omega, by simp only; omega⟩
        | none =>
          simp only
          cases hn : links.next with
          | some nx =>
            simp only [true_and]
            right
            exact ⟨by simp only; omega, by simp only; omega⟩
          | none =>
            have hin : InIsize m (D - 1) := ⟨by omega, by omega⟩
            simp only [checkedIsize, if_pos hin]
            cases hp : links.parent with
            | none => simp
            | some q =>
              simp only [true_and]
              right
              exact ⟨by simp only; omega, by simp only; omega⟩

/-- A state from which a walk ends with its depth in range. -/
def Ranged (m : Nat) (nodes : Slice α) (w : WalkEvents) : Prop :=
  w.node = none ∨ ∃ l, Rest nodes w l ∧ InRange m w l

theorem Ranged.step {w : WalkEvents} (h : Ranged m nodes w) :
    WalkEvents.nextIn m nodes w = WalkEvents.next nodes w ∧
      Ranged m nodes (WalkEvents.next nodes w).1 := by
  rcases h with h | ⟨l, hr, hi⟩
  · simp [WalkEvents.nextIn, WalkEvents.next, h, Ranged]
  · cases hr with
    | done hn => simp [WalkEvents.nextIn, WalkEvents.next, hn, Ranged]
    | item he hr =>
      obtain ⟨h1, h2⟩ := Rest.inRange he hr hi
      rw [he]
      exact ⟨h1, h2.imp id (fun h => ⟨_, hr, h⟩)⟩

theorem Ranged.walk (fuel : Nat) {w : WalkEvents} (h : Ranged m nodes w) :
    Walk.loopIn m nodes fuel w = Walk.nextLoop nodes fuel w ∧
      Ranged m nodes (Walk.nextLoop nodes fuel w).1 := by
  induction fuel generalizing w with
  | zero => exact ⟨rfl, h⟩
  | succ fuel ih =>
    obtain ⟨h1, h2⟩ := h.step
    simp only [Walk.loopIn, Walk.nextLoop]
    rw [h1]
    rcases hx : WalkEvents.next nodes w with ⟨w', g⟩
    rw [hx] at h2
    cases g with
    | none => exact ⟨rfl, h2⟩
    | diverge => exact ⟨rfl, h2⟩
    | some p =>
      obtain ⟨e, n⟩ := p
      simp only
      split
      · exact ⟨rfl, h2⟩
      · exact ih h2

theorem Ranged.withDepths (fuel : Nat) {w : WalkEvents} (h : Ranged m nodes w) :
    WithDepths.loopIn m nodes fuel w = WithDepths.nextLoop nodes fuel w ∧
      Ranged m nodes (WithDepths.nextLoop nodes fuel w).1 := by
  induction fuel generalizing w with
  | zero => exact ⟨rfl, h⟩
  | succ fuel ih =>
    obtain ⟨h1, h2⟩ := h.step
    simp only [WithDepths.loopIn, WithDepths.nextLoop]
    rw [h1]
    rcases hx : WalkEvents.next nodes w with ⟨w', g⟩
    rw [hx] at h2
    cases g with
    | none => exact ⟨rfl, h2⟩
    | diverge => exact ⟨rfl, h2⟩
    | some p =>
      obtain ⟨e, n⟩ := p
      simp only
      split
      · exact ⟨rfl, h2⟩
      · exact ih h2

theorem Ranged.inside (fuel : Nat) {w : WalkEvents} (h : Ranged m nodes w) :
    Inside.loopIn m nodes fuel w = Inside.nextLoop nodes fuel w ∧
      Ranged m nodes (Inside.nextLoop nodes fuel w).1 := by
  induction fuel generalizing w with
  | zero => exact ⟨rfl, h⟩
  | succ fuel ih =>
    obtain ⟨h1, h2⟩ := h.step
    simp only [Inside.loopIn, Inside.nextLoop]
    rw [h1]
    rcases hx : WalkEvents.next nodes w with ⟨w', g⟩
    rw [hx] at h2
    cases g with
    | none => exact ⟨rfl, h2⟩
    | diverge => exact ⟨rfl, h2⟩
    | some p =>
      obtain ⟨e, n⟩ := p
      simp only
      have h3 : Ranged m nodes (if w'.depth ≤ 0 then WalkEvents.default else w') := by
        split
        · exact .inl rfl
        · exact h2
      split
      · exact ⟨rfl, h3⟩
      · exact ih h3

/-- Two iterators which agree on the states that are reached return the same. -/
theorem Yields.agree {σ β : Type} {next next' : NextFn σ β} {P : σ → Prop}
    (hP : ∀ s, P s → next' s = next s ∧ P (next s).1) {s : σ} (hs : P s) (l : List β) :
    Yields next' s l ↔ Yields next s l := by
  constructor
  · intro h
    induction h with
    | done e => exact .done ((hP _ hs).1 ▸ e)
    | item e _ ih =>
      have h1 := (hP _ hs).1
      have h2 := (hP _ hs).2
      rw [h1] at e
      rw [e] at h2
      exact .item e (ih h2)
  · intro h
    induction h with
    | done e => exact .done ((hP _ hs).1.trans e)
    | item e _ ih =>
      have h1 := (hP _ hs).1
      have h2 := (hP _ hs).2
      rw [e] at h2
      exact .item (h1.trans e) (ih h2)

theorem forLoop_agree {σ β γ : Type} {next next' : NextFn σ β} {P : σ → Prop} {body body' : β → γ}
    (hP : ∀ s, P s → next' s = next s ∧ P (next s).1) (fuel : Nat) {s : σ} (hs : P s) {l : List β}
    (hl : Yields next s l) (hb : ∀ x ∈ l, body' x = body x) :
    forLoop next' body' fuel s = forLoop next body fuel s := by
  induction fuel generalizing s l with
  | zero => rfl
  | succ fuel ih =>
    obtain ⟨h1, h2⟩ := hP s hs
    simp only [forLoop, h1]
    cases hl with
    | done e => rw [e]
    | item e hl =>
      rw [e] at h2 ⊢
      simp only
      rw [ih h2 hl (fun x hx => hb x (by simp [hx])), hb _ (by simp)]

theorem Own.ranged {own : Nat → Option Nat} {rank : Nat → Nat} (h : Own nodes own rank) {d : Nat}
    (hl : d < nodes.length) (hm : nodes.length < m) (e : Event) :
    Ranged m nodes ⟨some (d, e), 0⟩ := by
  obtain ⟨l, h1, h2, h3, h4, h5⟩ := h.rest hl e 0
  have i1 := length_le_of_lt _ _ h2 h4
  have i2 := length_le_of_lt _ _ h3 h5
  refine .inr ⟨l, h1, by simp only; omega, ?_⟩
  simp only
  split <;> omega

/-! ## Bounds of the reported depths -/

theorem Rest.depth_lt {w : WalkEvents} {l : List (Int × Event × Nat)} (h : Rest nodes w l) :
    ∀ p ∈ l, p.2.1 ≠ .up → p.1 < w.depth + (ins l).length := by
  induction h with
  | done _ => simp
  | @item w w' e n l he hr ih =>
    have hstep : w'.depth ≤ w.depth + (if e = .up then 0 else 1) := by
      obtain ⟨node, D⟩ := w
      cases node with
      | none => simp [WalkEvents.next] at he
      | some p =>
        obtain ⟨n0, e0⟩ := p
        simp only [WalkEvents.next] at he
        cases hl : nodes[n0]? with
        | none => simp [hl] at he
        | some links =>
          simp only [hl, Prod.mk.injEq, Got.some.injEq] at he
          obtain ⟨hw, rfl, rfl⟩ := he
          subst hw
          cases e0 <;> simp only [WalkEvents.step] <;> cases links.next <;> cases links.first <;>
            simp <;> omega
    intro p hp hu
    rcases List.mem_cons.1 hp with rfl | hp
    · rw [ins_other _ hu]
      simp only [List.length_cons]
      omega
    · have := ih p hp hu
      by_cases heu : e = .up
      · subst heu
        rw [ins_up]
        simp at hstep
        omega
      · rw [ins_other _ heu]
        simp only [heu, if_false] at hstep
        simp only [List.length_cons]
        omega

theorem Rest.depth_gt {w : WalkEvents} {l : List (Int × Event × Nat)} (h : Rest nodes w l) :
    ∀ p ∈ l, w.depth - (outs l).length + (match w.node with | some (_, .up) => 1 | _ => 0) ≤ p.1 := by
  induction h with
  | done _ => simp
  | @item w w' e n l he hr ih =>
    obtain ⟨node, D⟩ := w
    cases node with
    | none => simp [WalkEvents.next] at he
    | some p =>
      obtain ⟨n0, e0⟩ := p
      simp only [WalkEvents.next] at he
      cases hl : nodes[n0]? with
      | none => simp [hl] at he
      | some links =>
        simp only [hl, Prod.mk.injEq, Got.some.injEq] at he
        obtain ⟨hw, rfl, rfl⟩ := he
        intro p hp
        simp only
        rcases List.mem_cons.1 hp with rfl | hp
        · simp only
          by_cases hu : e0 = .up
          · subst hu; rw [outs_up]; simp only [List.length_cons]; omega
          · rw [outs_other _ hu]
            have : (match e0 with | .up => (1 : Int) | _ => 0) = 0 := by cases e0 <;> simp_all
            cases e0 <;> simp_all <;> omega
        · have := ih p hp
          have hne : w'.node ≠ none := by
            intro hnone
            cases hr with
            | done _ => simp at hp
            | item e _ => simp [WalkEvents.next, hnone] at e
          subst hw
          by_cases hu : e0 = .up
          · subst hu
            rw [outs_up]
            simp only [List.length_cons, WalkEvents.step] at this hne ⊢
            cases hn : links.next with
            | some nx => simp only [hn] at this; omega
            | none =>
              simp only [hn] at this hne
              cases hp : links.parent with
              | none => simp [hp] at hne
              | some q => simp only [hp] at this; omega
          · rw [outs_other _ hu]
            have hs : WalkEvents.step D links e0 = (match links.first with
                | some first => (D + 1, some (first, .down))
                | none => match links.next with
                  | some next => (D, some (next, .next))
                  | none => (D - 1, match links.parent with
                    | none => none
                    | some p => some (p, .up)) : Int × Option (Nat × Event)) := by
              cases e0 <;> first | exact absurd rfl hu | rfl
            have hz : (match (some (n0, e0) : Option (Nat × Event)) with
                | some (_, .up) => (1 : Int) | _ => 0) = 0 := by cases e0 <;> simp_all
            rw [hz]
            rw [hs] at this hne
            cases hf : links.first with
            | some f => simp only [hf] at this; omega
            | none =>
              simp only [hf] at this hne
              cases hn : links.next with
              | some nx => simp only [hn] at this; omega
              | none =>
                simp only [hn] at this hne
                cases hp : links.parent with
                | none => simp [hp] at hne
                | some q => simp only [hp] at this; omega

/-- The reported depth is at least the number of nodes above. -/
theorem Rest.dep_le {own : Nat → Option Nat} {rank : Nat → Nat} (h : Own nodes own rank)
    {dep : Nat → Nat} (hd : Dep own dep) {w : WalkEvents} {l : List (Int × Event × Nat)}
    (hr : Rest nodes w l) (hw : ∀ n e, w.node = some (n, e) → (dep n : Int) ≤ w.depth) :
    ∀ p ∈ l, (dep p.2.2 : Int) ≤ p.1 := by
  induction hr with
  | done _ => simp
  | @item w w' e n l he hr ih =>
    obtain ⟨node, D⟩ := w
    cases node with
    | none => simp [WalkEvents.next] at he
    | some p =>
      obtain ⟨n0, e0⟩ := p
      simp only [WalkEvents.next] at he
      cases hl : nodes[n0]? with
      | none => simp [hl] at he
      | some links =>
        simp only [hl, Prod.mk.injEq, Got.some.injEq] at he
        obtain ⟨rfl, rfl, rfl⟩ := he
        have h0 := hw n0 e0 rfl
        simp only at h0
        have hnx : ∀ k, links.next = some k → (dep k : Int) ≤ D := by
          intro k hk
          have := (h.next n0 links k hl hk).2.1
          rw [hd.sibs this]; exact h0
        have hup : ∀ k, links.parent = some k → (dep k : Int) ≤ D - 1 := by
          intro k hk
          have := hd.lt (h.par n0 links k hl hk)
          omega
        have hfs : ∀ k, links.first = some k → (dep k : Int) ≤ D + 1 := by
          intro k hk
          have := hd.below k n0 (h.first n0 links k hl hk).1
          omega
        have hasc : ∀ k e, (match links.parent with
            | none => none
            | some p => some (p, .up) : Option (Nat × Event)) = some (k, e) → (dep k : Int) ≤ D - 1 := by
          intro k e hk
          cases hp : links.parent with
          | none => simp [hp] at hk
          | some q => simp [hp] at hk; rw [← hk.1]; exact hup q hp
        intro p hp
        rcases List.mem_cons.1 hp with rfl | hp
        · exact h0
        · refine ih ?_ p hp
          intro k e hk
          revert hk
          cases e0 <;> simp only [WalkEvents.step] <;> cases hn : links.next <;>
            cases hf : links.first <;> simp only <;> intro hk <;>
            first
            | exact hasc k e hk
            | (simp only [Option.some.injEq, Prod.mk.injEq] at hk
               obtain ⟨rfl, _⟩ := hk
               first | exact hnx _ hn | exact hfs _ hf)

end Syntree
