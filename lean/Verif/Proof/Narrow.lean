import Verif.Proof.Wider

/-!
A history without failures that fits into a smaller flavor behaves in the same way there.
-/

namespace Syntree

variable {α : Type} {a b : Flavor} {i j : Nat}

/-- A token that is added moves the cursor. -/
theorem CurInv.token_moves {s s' : Sys α} {d : α} {len : Nat} {o : Out} (hi : CurInv s.b)
    (hb : b.ik = .bits j) (h0 : len ≠ 0) (h : s.step b (.token d len) = (s', .ok o)) :
    s'.b.cursor = s.b.cursor + len := by
  have hst := hi.step (fl := b) (op := .token d len) rfl
  rw [h] at hst
  rcases hst with ⟨h3, _⟩ | ⟨_, h3⟩
  · simp at h3
  · have hid : (idOf (.ok o : Except Err Out)).isSome = true := by
      have := congrArg (·.2) h
      simp only [Sys.step, Sys.lift] at this
      cases hr : (Builder.token b s.b d len).2 with
      | error e => rw [hr] at this; simp [Except.map] at this
      | ok id =>
        rw [hr] at this
        simp only [Except.map, Except.ok.injEq] at this
        rw [← this]; rfl
    simp only at h3
    rw [h3, hid]
    have : (len == 0) = false := by simpa using h0
    simp only [if_true, Op.len, hb, IndexKind.lenIsEmpty, this, Bool.false_eq_true, if_false]

/-- The specification. -/
theorem Nest.step_wider (w : Wider a b i j) {n : Nest α} {op : Op α} (hn : n.count < 2 ^ a.width - 1)
    (ht : ∀ d len, op = .token d len → n.cursor + len < 2 ^ i) : n.step a op = n.step b op := by
  have hp : 2 ^ a.width ≤ 2 ^ b.width := Nat.pow_le_pow_right (by omega) w.width
  have hij : 2 ^ i ≤ 2 ^ j := Nat.pow_le_pow_right (by omega) w.le
  have fa : n.full a = false := by simp only [Nest.full, decide_eq_false_iff_not]; omega
  have fb : n.full b = false := by simp only [Nest.full, decide_eq_false_iff_not]; omega
  cases op with
  | token d len =>
    have h1 := ht d len rfl
    have h2 : n.cursor + len < 2 ^ j := by omega
    simp only [Nest.step, Nest.token, fa, fb, w.left, w.right, IndexKind.lenIsEmpty,
      IndexKind.checkedAddLen, h1, h2]
  | _ => simp [Nest.step, Nest.token, Nest.openWith, Nest.closeAt, fa, fb, w.left, w.right,
      IndexKind.lenIsEmpty]

/-- A successful history only moves the cursor forward and adds nodes. -/
theorem clean_grows (ops : List (Op α)) {s : Sys α} (hi : CurInv s.b)
    (hc : ∀ op ∈ ops, op.cursorDriven = true) (ho : ∀ o ∈ (s.run b ops).2, ∃ v, o = .ok v) :
    s.b.cursor ≤ (s.run b ops).1.b.cursor ∧
      s.b.tree.nodes.length ≤ (s.run b ops).1.b.tree.nodes.length := by
  induction ops generalizing s with
  | nil => exact ⟨Nat.le_refl _, Nat.le_refl _⟩
  | cons op ops ih =>
    simp only [Sys.run] at ho ⊢
    obtain ⟨v, hv⟩ := ho _ (List.mem_cons_self ..)
    have hg := step_grows (fl := b) s (hc op (List.mem_cons_self ..))
    rcases hi.step (fl := b) (hc op (List.mem_cons_self ..)) with ⟨h1, _⟩ | ⟨h1, h2⟩
    · rw [hv] at h1; simp at h1
    · obtain ⟨h3, h4⟩ := ih h1 (fun x hx => hc x (by simp [hx])) (fun o h => ho o (by simp [h]))
      exact ⟨by omega, by omega⟩

/-- A history without failures that fits into the smaller flavor. -/
theorem Wider.narrow (w : Wider a b i j) (ops : List (Op α)) {s : Sys α} {n n' : Nest α}
    {os : List (Except Err Out)} (hi : CurInv s.b) (hr : Rel false s n)
    (hc : ∀ op ∈ ops, op.cursorDriven = true) (ho : ∀ o ∈ (s.run b ops).2, ∃ v, o = .ok v)
    (hn : n.run b ops = some (n', os)) (h1 : (s.run b ops).1.b.cursor < 2 ^ i)
    (h2 : (s.run b ops).1.b.tree.nodes.length < 2 ^ a.width - 1) :
    s.run a ops = s.run b ops ∧ n.run a ops = some (n', os) := by
  induction ops generalizing s n os with
  | nil => exact ⟨rfl, hn⟩
  | cons op ops ih =>
    simp only [Sys.run] at ho h1 h2 ⊢
    obtain ⟨v, hv⟩ := ho _ (List.mem_cons_self ..)
    have hcd := hc op (List.mem_cons_self ..)
    have hg := step_grows (fl := b) s hcd
    have hst : CurInv (s.step b op).1.b ∧ s.b.cursor ≤ (s.step b op).1.b.cursor := by
      rcases hi.step (fl := b) hcd with ⟨h1, _⟩ | ⟨h1, h2⟩
      · rw [hv] at h1; simp at h1
      · exact ⟨h1, by omega⟩
    have hcr := clean_grows (b := b) ops hst.1 (fun x hx => hc x (by simp [hx]))
      (fun o h => ho o (by simp [h]))
    have hlen : s.b.tree.nodes.length < 2 ^ a.width - 1 := by omega
    have htok : ∀ d len, op = .token d len → s.b.cursor + len < 2 ^ i := by
      intro d len e
      subst e
      by_cases h0 : len = 0
      · subst h0; omega
      · have := hi.token_moves (s' := (s.step b (.token d len)).1) (o := v) w.right h0
          (Prod.ext rfl hv)
        omega
    have hcount : n.count = s.b.tree.nodes.length := hr.tree.len.symm
    have hne : n.step a op = n.step b op := Nest.step_wider w (by omega) (by
      intro d len e; rw [← hr.cursor]; exact htok d len e)
    have hse : s.step a op = s.step b op := by
      rcases w.step s op with h | ⟨_, h | ⟨_, d, len, e, _, h, _⟩⟩
      · exact h
      · simp only [Tree.len] at h; omega
      · have := htok d len e; omega
    simp only [Nest.run] at hn ⊢
    rw [hne, hse]
    cases hns : n.step b op with
    | none => rw [hns] at hn; simp at hn
    | some r =>
      obtain ⟨n1, o1⟩ := r
      rw [hns] at hn
      simp only at hn ⊢
      cases hnr : n1.run b ops with
      | none => rw [hnr] at hn; simp at hn
      | some r =>
        obtain ⟨n2, os2⟩ := r
        rw [hnr] at hn
        simp only [Option.some.injEq, Prod.mk.injEq] at hn
        obtain ⟨s1, e, hr'⟩ := hr.step (g' := false) b op hns (fun h => by simp at h)
        have hs1 : (s.step b op).1 = s1 := by rw [e]
        obtain ⟨k1, k2⟩ := ih (s := (s.step b op).1) (n := n1) (os := os2) hst.1
          (by rw [hs1]; exact hr') (fun x hx => hc x (by simp [hx]))
          (fun o h => ho o (by simp [h])) (by rw [hnr, hn.1]) h1 h2
        rw [k1, k2]
        exact ⟨rfl, by simp [hn.2]⟩

/-- The same for a tree built. -/
theorem Built.narrow (w : Wider a b i j) {ops : List (Op α)} {t : Tree α} {F : Forest (Lab α)}
    (hcl : Clean b ops) (h : Built b ops t F) (h1 : t.span.stop < 2 ^ i)
    (h2 : t.nodes.length < 2 ^ a.width - 1) : Clean a ops ∧ Built a ops t F := by
  obtain ⟨n, os, e1, e2, e3⟩ := h
  have hb : (Sys.init.run b ops).1.b.tree = t := by
    unfold Builder.build at e3
    split at e3
    · simp at e3
    · exact Except.ok.inj e3
  have hi : CurInv (Sys.init.run b ops).1.b := by
    have key : ∀ (ops : List (Op α)) (s : Sys α), CurInv s.b →
        (∀ op ∈ ops, op.cursorDriven = true) → (∀ o ∈ (s.run b ops).2, ∃ v, o = .ok v) →
        CurInv (s.run b ops).1.b := by
      intro ops
      induction ops with
      | nil => intro s h _ _; exact h
      | cons op ops ih =>
        intro s h hc ho
        simp only [Sys.run] at ho ⊢
        obtain ⟨v, hv⟩ := ho _ (List.mem_cons_self ..)
        refine ih _ ?_ (fun x hx => hc x (by simp [hx])) (fun o h => ho o (by simp [h]))
        rcases h.step (fl := b) (hc op (List.mem_cons_self ..)) with ⟨h1, _⟩ | ⟨h1, _⟩
        · rw [hv] at h1; simp at h1
        · exact h1
    exact key ops Sys.init CurInv.new hcl.1 hcl.2
  obtain ⟨k1, k2⟩ := w.narrow ops (s := Sys.init) (n := Nest.init) CurInv.new (Rel.init false)
    hcl.1 hcl.2 e1 (by
      have := hi.stop
      rw [hb] at this
      rw [this] at h1
      exact h1) (by rw [hb]; exact h2)
  exact ⟨⟨hcl.1, by rw [k1]; exact hcl.2⟩, n, os, k2, e2, by rw [k1]; exact e3⟩

end Syntree
