import Verif.Proof.Cost
import Verif.Proof.EditHalf
import Verif.Proof.FaultEdit

/-! How long `modify` takes. -/

namespace Syntree

variable {α : Type} {fl : Flavor}

open Forest

/-- The count is the number of rounds. -/
theorem modify_rounds (S : List Nat) (nodes : Slice α) (fuel : Nat) : ∀ (st : ModState α),
    ModState.loop fl S nodes fuel st ≠ .error .diverge →
    Rounds (fun m => ModState.loop fl S nodes m st) (· = .error .diverge)
      (ModState.steps fl S nodes fuel st).1 := by
  induction fuel with
  | zero => intro st h; exact absurd rfl h
  | succ fuel ih =>
    intro st h
    cases hc : st.current with
    | none =>
      simp only [ModState.steps, hc]
      exact rounds_one rfl (by simp [ModState.loop, hc])
    | some p =>
      obtain ⟨node, first⟩ := p
      cases hp : ptrNew fl.width st.output.len with
      | none =>
        simp only [ModState.steps, hc, hp]
        exact rounds_one rfl (by simp [ModState.loop, hc, hp])
      | some nodeId =>
        by_cases hS : nodeId ∈ S
        · rcases hk : st.refactor.skipSubtree nodes node first with ⟨rf, _ | ⟨node', first'⟩⟩
          · simp only [ModState.steps, ModState.loop, hc, hp, hS, if_true, hk] at h ⊢
            refine rounds_succ rfl (fun m => ?_) (ih _ h)
            simp [ModState.loop, hc, hp, hS, hk]
          · cases he : ModState.emit fl nodes { st with refactor := rf } nodeId node' first' with
            | error e =>
              have hne : e ≠ .diverge := by
                rintro rfl
                apply h
                simp only [ModState.loop, hc, hp, hS, if_true, hk]
                rw [hc] at he
                simp only [he]
              simp only [ModState.steps, hc, hp, hS, if_true, hk]
              rw [hc] at he
              simp only [he]
              exact rounds_one rfl (by simpa [ModState.loop, hc, hp, hS, hk, he] using hne)
            | ok st' =>
              rw [hc] at he
              simp only [ModState.steps, ModState.loop, hc, hp, hS, if_true, hk, he] at h ⊢
              refine rounds_succ rfl (fun m => ?_) (ih _ h)
              simp [ModState.loop, hc, hp, hS, hk, he]
        · cases he : ModState.emit fl nodes st nodeId node first with
          | error e =>
            have hne : e ≠ .diverge := by
              rintro rfl
              apply h
              simp only [ModState.loop, hc, hp, hS, if_false, he]
            simp only [ModState.steps, hc, hp, hS, if_false, he]
            exact rounds_one rfl (by simpa [ModState.loop, hc, hp, hS, he] using hne)
          | ok st' =>
            simp only [ModState.steps, ModState.loop, hc, hp, hS, if_false, he] at h ⊢
            refine rounds_succ rfl (fun m => ?_) (ih _ h)
            simp [ModState.loop, hc, hp, hS, he]

/-- The inner loop takes that many entries, and it stops at one with a sibling after it. -/
theorem ascend_steps (nodes : Slice α) (prev : Option Nat) : ∀ ps : List (Nat × Nat),
    (RefactorWalk.ascend nodes prev ps).1.parents =
      ps.drop (RefactorWalk.ascendSteps nodes ps) ∧ RefactorWalk.ascendSteps nodes ps ≤ ps.length
  | [] => ⟨rfl, Nat.le_refl _⟩
  | (p, i) :: ps => by
    obtain ⟨h1, h2⟩ := ascend_steps nodes prev ps
    simp only [RefactorWalk.ascend, RefactorWalk.ascendSteps]
    cases nodeNext nodes p with
    | some q => simp
    | none =>
      simp only [Nat.add_comm 1, List.drop_succ_cons, List.length_cons]
      exact ⟨h1, by omega⟩

theorem step_steps (nodes : Slice α) (r : RefactorWalk) (node nodeId : Nat) :
    (r.step nodes node nodeId).1.parents.length + RefactorWalk.stepSteps nodes r.parents node ≤
      r.parents.length + 1 := by
  unfold RefactorWalk.step RefactorWalk.stepSteps
  cases nodeFirst nodes node with
  | some c => simp
  | none =>
    cases nodeNext nodes node with
    | some c => simp
    | none =>
      obtain ⟨h1, h2⟩ := ascend_steps nodes r.prev r.parents
      simp only [h1, List.length_drop]
      omega

theorem emit_cost {nodes : Slice α} {st st' : ModState α} {nodeId node : Nat} {first : Bool}
    (h : ModState.emit fl nodes st nodeId node first = .ok st') :
    st'.output.len = st.output.len + 1 ∧
    st'.refactor.parents.length + RefactorWalk.stepSteps nodes st.refactor.parents node ≤
      st.refactor.parents.length + 1 := by
  rw [emit_split] at h
  cases hn : nodes[node]? with
  | none => rw [hn] at h; simp at h
  | some links =>
    rw [hn] at h
    have hlk : (st.linked nodeId first).2.1.parents = st.refactor.parents := by
      unfold ModState.linked
      cases first <;> rfl
    have key : ∀ (out : Tree α) (c : Nat) (sp : Span), out.nodes.length = st.output.nodes.length →
        .ok (ModState.finish nodes links (st.linked nodeId first).2.1 (st.linked nodeId first).2.2
          nodeId node out c sp) = (.ok st' : Except Err (ModState α)) →
        st'.output.len = st.output.len + 1 ∧
        st'.refactor.parents.length + RefactorWalk.stepSteps nodes st.refactor.parents node ≤
          st.refactor.parents.length + 1 := by
      intro out c sp hl e
      simp only [Except.ok.injEq] at e
      subst e
      refine ⟨?_, ?_⟩
      · have := (finish_length nodes links (st.linked nodeId first).2.1
          (st.linked nodeId first).2.2 nodeId node out c sp).1
        simp only [Tree.len, this, hl]
      · have := step_steps nodes (st.linked nodeId first).2.1 node nodeId
        rw [hlk] at this
        exact this
    dsimp only at h
    split at h
    · split at h
      · simp at h
      · exact key _ _ _ (by rw [pushIndex_nodes, linked_length]) h
    · exact key _ _ _ (linked_length _ _ _) h

theorem skip_steps (nodes : Slice α) (r : RefactorWalk) (node : Nat) (first : Bool) :
    (r.skipSubtree nodes node first).1.parents.length ≤ r.parents.length := by
  unfold RefactorWalk.skipSubtree
  cases nodeNext nodes node with
  | some n => exact Nat.le_refl _
  | none =>
    cases h : r.parents with
    | nil => simp [h]
    | cons p ps => simp

/-- The inner loop takes no more rounds than the outer one; a run that succeeds adds a node in every
round but the last one or two. -/
theorem loop_cost (S : List Nat) (nodes : Slice α) (fuel : Nat) : ∀ (st : ModState α),
    (ModState.steps fl S nodes fuel st).2 ≤
      (ModState.steps fl S nodes fuel st).1 + st.refactor.parents.length ∧
    ∀ st', ModState.loop fl S nodes fuel st = .ok st' →
      st'.output.len + 1 ≤ (ModState.steps fl S nodes fuel st).1 + st.output.len ∧
      (ModState.steps fl S nodes fuel st).1 + st.output.len ≤ st'.output.len + 2 := by
  induction fuel with
  | zero => intro st; exact ⟨Nat.zero_le _, by simp [ModState.loop]⟩
  | succ fuel ih =>
    intro st
    cases hc : st.current with
    | none =>
      simp only [ModState.steps, ModState.loop, hc]
      refine ⟨by omega, ?_⟩
      rintro st' h
      simp only [Except.ok.injEq] at h
      subst h
      omega
    | some p =>
      obtain ⟨node, first⟩ := p
      cases hp : ptrNew fl.width st.output.len with
      | none => simp [ModState.steps, ModState.loop, hc, hp]
      | some nodeId =>
        by_cases hS : nodeId ∈ S
        · have hsk := skip_steps nodes st.refactor node first
          rcases hk : st.refactor.skipSubtree nodes node first with ⟨rf, _ | ⟨node', first'⟩⟩
          · rw [hk] at hsk
            simp only [ModState.steps, ModState.loop, hc, hp, hS, if_true, hk]
            cases fuel with
            | zero => simp [ModState.steps, ModState.loop]
            | succ fuel =>
              simp only [ModState.steps, ModState.loop]
              refine ⟨by omega, ?_⟩
              rintro st' h
              simp only [Except.ok.injEq] at h
              subst h
              simp only
              omega
          · rw [hk] at hsk
            simp only at hsk
            simp only [ModState.steps, ModState.loop, hc, hp, hS, if_true, hk]
            split
            · rename_i e he
              simp [he]
            · rename_i st2 he
              simp only [he]
              obtain ⟨h1, h2⟩ := emit_cost he
              obtain ⟨h3, h4⟩ := ih st2
              simp only at h1 h2 ⊢
              refine ⟨by omega, fun st' h => ?_⟩
              have := h4 st' h
              omega
        · simp only [ModState.steps, ModState.loop, hc, hp, hS, if_false]
          split
          · rename_i e he
            simp [he]
          · rename_i st2 he
            simp only [he]
            obtain ⟨h1, h2⟩ := emit_cost he
            obtain ⟨h3, h4⟩ := ih st2
            refine ⟨by omega, fun st' h => ?_⟩
            have := h4 st' h
            omega

/-- `modify`, in all. -/
theorem modify_cost {t : Tree α} {F : Forest (Lab α)} (hseg : InSeg t.nodes F)
    (hfirst : t.firstNode = F.headId) (hsz : F.size ≤ t.nodes.length) (c : ChangeSet)
    {S : List Nat} (hs : ∀ i ∈ c.changes, i ∈ S) :
    (c.steps fl t).1 ≤ (S.length + 1) * t.len + 1 ∧ (c.steps fl t).2 ≤ (c.steps fl t).1 ∧
    ∀ t', c.modify fl t = .ok t' → t'.len + 1 ≤ (c.steps fl t).1 ∧
      (c.steps fl t).1 ≤ t'.len + 2 := by
  have hst := modify_start hseg hfirst
  have hstop : ∀ (S' : List Nat) (fuel : Nat), (∀ i ∈ c.changes, i ∈ S') →
      (S'.length + 1) * t.len + 1 ≤ fuel →
      ModState.loop fl c.changes t.nodes fuel
        ⟨Tree.empty, ⟨[], none⟩, 0, t.firstNode.map (·, false)⟩ ≠ .error .diverge := by
    intro S' fuel hs' hf hd
    obtain ⟨h1, h2⟩ := loop_spec (fl := fl) (S := c.changes) fuel hst
    cases he : EM.run fl c.changes fuel (EM.goto F [] Nest.init) with
    | ok n =>
      obtain ⟨st', e, _⟩ := h2 n he
      rw [e] at hd; simp at hd
    | error e =>
      rw [h1 e he] at hd
      have := machine_enough hs' F hsz hf he
      subst this
      simp at hd
  obtain ⟨h1, h2⟩ := loop_cost (fl := fl) c.changes t.nodes
    ((c.changes.length + 1) * (t.nodes.length + 1) + 1)
    ⟨Tree.empty, ⟨[], none⟩, 0, t.firstNode.map (·, false)⟩
  have hr := modify_rounds (fl := fl) c.changes t.nodes
    ((c.changes.length + 1) * (t.nodes.length + 1) + 1)
    ⟨Tree.empty, ⟨[], none⟩, 0, t.firstNode.map (·, false)⟩
    (hstop c.changes _ (fun _ h => h) (Nat.succ_le_succ (Nat.mul_le_mul_left _ (Nat.le_succ _))))
  refine ⟨?_, by simpa [ChangeSet.steps] using h1, ?_⟩
  · rcases Nat.lt_or_ge ((S.length + 1) * t.len + 1) (c.steps fl t).1 with hlt | hge
    · exact absurd (hr.2 _ hlt) (hstop S _ hs (Nat.le_refl _))
    · exact hge
  · intro t' h
    unfold ChangeSet.modify at h
    dsimp only at h
    split at h
    · simp at h
    · rename_i st' he
      simp only [Except.ok.injEq] at h
      subst h
      have := h2 st' he
      simp only [Tree.len, Tree.empty, List.length_nil, Nat.add_zero] at this
      exact this

end Syntree

namespace Syntree

variable {α : Type} {fl : Flavor}

open Forest

/-! ## How large the result of an edit can get -/

/-- `m` tokens of length zero. -/
def emptyTokens : Nat → Lit Nat
  | 0 => .nil
  | m + 1 => .tokenEmpty 0 (emptyTokens m)

theorem emptyTokens_spec (ik : IndexKind) : ∀ m, (emptyTokens m).plain = true ∧
    (emptyTokens m).count = m ∧ (emptyTokens m).len ik = 0
  | 0 => ⟨rfl, rfl, rfl⟩
  | m + 1 => by
    obtain ⟨h1, h2, h3⟩ := emptyTokens_spec ik m
    exact ⟨h1, by simp only [emptyTokens, Lit.count, h2]; omega, h3⟩

/-- The nodes of `m` tokens of length zero. -/
def emptyLeaves (i : Nat) : Nat → Forest (Lab Nat)
  | 0 => .nil
  | m + 1 => .cons ⟨i, 0, ⟨0, 0⟩⟩ .nil (emptyLeaves (i + 1) m)

theorem emptyTokens_layout (ik : IndexKind) : ∀ m i,
    (emptyTokens m).layout ik 0 i = emptyLeaves i m
  | 0, _ => rfl
  | m + 1, i => by
    simp only [emptyTokens, Lit.layout, emptyLeaves, emptyTokens_layout ik m]

/-- Nothing is written in it. -/
def Forest.Mute : Forest (Lab α) → Prop
  | .nil => True
  | .cons x k r => x.span.stop ≤ x.span.start ∧ k.Mute ∧ r.Mute

theorem mute_literal (ik : IndexKind) (F : Forest (Lab α)) (h : F.Mute) :
    F.literal.count = F.size ∧ F.literal.len ik = 0 := by
  induction F with
  | nil => exact ⟨rfl, rfl⟩
  | cons x k r ihk ihr =>
    obtain ⟨h1, h2, h3⟩ := h
    obtain ⟨a1, a2⟩ := ihr h3
    cases k with
    | nil =>
      refine ⟨by simp only [Forest.literal, Lit.count, Forest.size, a1], ?_⟩
      simp only [Forest.literal, Lit.len, a2, Nat.sub_eq_zero_of_le h1]
      cases ik <;> rfl
    | cons y k' r' =>
      obtain ⟨b1, b2⟩ := ihk h2
      exact ⟨by simp only [Forest.literal, Lit.count, a1, b1]; rfl,
        by simp only [Forest.literal, Lit.len, a2, b2]⟩

theorem emptyLeaves_spec : ∀ m i, (emptyLeaves i m).Mute ∧ (emptyLeaves i m).size = m
  | 0, _ => ⟨trivial, rfl⟩
  | m + 1, i => by
    obtain ⟨h1, h2⟩ := emptyLeaves_spec m (i + 1)
    exact ⟨⟨Nat.le_refl _, trivial, h1⟩, by simp only [emptyLeaves, Forest.size, h2]; omega⟩

/-- All children are copied. -/
theorem edited_whole {S : List Nat} : ∀ (m c i : Nat), (∀ j, j < m → c + j ∉ S) →
    Edited S false c (emptyLeaves i m) (emptyLeaves i m) false
  | 0, _, _, _ => .nil
  | m + 1, c, i, h => .keep (h 0 (by omega)) (.leaf (edited_whole m (c + 1) (i + 1) fun j hj => by
      have := h (j + 1) (by omega)
      rwa [show c + 1 + j = c + (j + 1) by omega]))

/-- All children but the last one are copied. -/
theorem edited_cut {S : List Nat} : ∀ (m c i : Nat), (∀ j, j < m → c + j ∉ S) → c + m ∈ S →
    Edited S false c (emptyLeaves i (m + 1)) (emptyLeaves i m) true
  | 0, _, _, _, h => .last h
  | m + 1, c, i, h, h' => .keep (h 0 (by omega)) (.leaf (edited_cut m (c + 1) (i + 1) (fun j hj => by
      have := h (j + 1) (by omega)
      rwa [show c + 1 + j = c + (j + 1) by omega]) (by
      rwa [show c + 1 + m = c + (m + 1) by omega])))

/-- The ids `m, 2 * m, …, k * m`. -/
def multiples (m k : Nat) : List Nat := (List.range k).map fun j => (j + 1) * m

theorem mem_multiples {m k i : Nat} : i ∈ multiples m k ↔ ∃ j, j < k ∧ (j + 1) * m = i := by
  simp [multiples]

theorem between_multiples {m k c j : Nat} (hj : j < m) : c * (m + 1) + 1 + j ∉ multiples (m + 1) k := by
  intro h
  obtain ⟨q, _, e⟩ := mem_multiples.1 h
  rcases Nat.lt_or_ge q c with hq | hq
  · have := Nat.mul_le_mul_right (m + 1) hq
    simp only [Nat.succ_eq_add_one] at this
    omega
  · have h1 := Nat.mul_le_mul_right (m + 1) hq
    rw [Nat.add_mul] at e
    omega

/-- One node with `m + 1` children: the copy starts over with every removal. -/
theorem edited_again (m k : Nat) : ∀ (d c : Nat), c + d = k →
    ∃ G, Edited (multiples (m + 1) k) true (c * (m + 1))
      (.cons ⟨0, 0, ⟨0, 0⟩⟩ (emptyLeaves 1 (m + 1)) .nil) G false ∧ G.Mute ∧
      G.size = (d + 1) * (m + 1) + 1
  | 0, c, h => by
    obtain ⟨h1, h2⟩ := emptyLeaves_spec (m + 1) 1
    refine ⟨.cons ⟨0, 0, ⟨0, 0⟩⟩ (emptyLeaves 1 (m + 1)) .nil, .node (by simp [emptyLeaves])
      (edited_whole _ _ _ ?_) .nil, ⟨Nat.le_refl _, h1, trivial⟩, ?_⟩
    · intro j hj
      rcases Nat.lt_or_ge j m with hjm | hjm
      · exact between_multiples hjm
      · intro hh
        obtain ⟨q, hq, e⟩ := mem_multiples.1 hh
        have : j = m := by omega
        subst this
        have h3 := Nat.mul_le_mul_right (j + 1) (show q + 1 ≤ c by omega)
        omega
    · simp only [Forest.size, h2]; omega
  | d + 1, c, h => by
    obtain ⟨G, h1, h2, h3⟩ := edited_again m k d (c + 1) (by omega)
    obtain ⟨h4, h5⟩ := emptyLeaves_spec m 1
    have hn : c * (m + 1) + 1 + m = (c + 1) * (m + 1) := by rw [Nat.add_mul c 1]; omega
    refine ⟨.cons ⟨0, 0, ⟨0, 0⟩⟩ (emptyLeaves 1 m) G, .again (by simp [emptyLeaves])
      (edited_cut m _ _ (fun j hj => between_multiples hj) ?_) ?_, ⟨Nat.le_refl _, h4, h2⟩, ?_⟩
    · rw [hn]; exact mem_multiples.2 ⟨c, by omega, rfl⟩
    · rw [h5, hn]; exact h1
    · simp only [Forest.size, h5, h3]
      rw [Nat.add_mul (d + 1) 1]; omega

end Syntree
