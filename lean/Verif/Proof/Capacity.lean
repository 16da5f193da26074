import Verif.Spec.Capacity
import Verif.Proof.Clone
import Verif.Proof.EditCost

/-!
# Capacity: nodes are added one at a time
-/

namespace Syntree

variable {α : Type} {fl : Flavor}

theorem insert_len_succ (b : Builder α) (d : α) (sp : Span) :
    (b.insert fl d sp).1.tree.len ≤ b.tree.len + 1 := by
  unfold Builder.insert
  cases ptrNew fl.width b.tree.len with
  | none => exact Nat.le_succ _
  | some new =>
    simp only [Tree.len, modifyOpt_nodes]
    cases b.sibling <;> cases b.parent <;>
      simp [Tree.push, Tree.modifyNode, Tree.addRoot]

theorem closeAtCore_len_succ (b : Builder α) (cells : Cells) (c : Nat) (d : α) (e : Option Span) :
    (b.closeAtCore fl cells c d e).2.1.tree.len ≤ b.tree.len + 1 := by
  unfold Builder.closeAtCore
  cases cells[c]? with
  | none => exact Nat.le_succ _
  | some cell =>
    simp only
    split
    · exact Nat.le_succ _
    · cases ptrNew fl.width b.tree.len with
      | none => exact Nat.le_succ _
      | some newId =>
        simp only
        cases b.tree.nodes[cell.node]? with
        | none =>
          simp only
          have := insert_len_succ (fl := fl) b d (e.getD (Span.point b.cursor))
          rcases hh : b.insert fl d (e.getD (Span.point b.cursor)) with ⟨b', _ | i⟩ <;>
            rw [hh] at this
          · exact this
          · simp only; split <;> exact this
        | some links =>
          simp only
          have := reparent_len newId cell.node links b.tree.nodes
          rcases hh : reparent newId cell.node links b.tree.nodes with ⟨nodes, _ | ⟨last, span⟩⟩ <;>
            rw [hh] at this <;> simp only at this
          · simp only [Tree.len, this]; exact Nat.le_succ _
          · obtain ⟨f, g, _, _, hr⟩ := relink_nodes { b.tree with nodes := nodes } cell.node newId
              links.parent links.prev
              { data := d, span := e.getD span, prev := links.prev, parent := links.parent,
                next := none, first := some cell.node, last := some last }
            simp only [Tree.len, hr, modifyOpt_nodes]
            cases links.parent <;> cases links.prev <;> simp [this]

theorem Sys.step_len_le_succ (s : Sys α) (op : Op α) :
    (s.step fl op).1.b.tree.len ≤ s.b.tree.len + 1 := by
  have hO : ∀ d sp, (s.b.openWith fl d sp).1.tree.len ≤ s.b.tree.len + 1 := by
    intro d sp
    have := insert_len_succ (fl := fl) s.b d sp
    unfold Builder.openWith
    rcases hh : s.b.insert fl d sp with ⟨b', _ | _⟩ <;> rw [hh] at this <;> exact this
  have hT : ∀ d n, (s.b.token fl d n).1.tree.len ≤ s.b.tree.len + 1 := by
    intro d n
    unfold Builder.token
    by_cases he : fl.ik.lenIsEmpty n = true
    · simp only [he, if_true]
      have := insert_len_succ (fl := fl) s.b d (Span.new s.b.cursor s.b.cursor)
      rcases hh : s.b.insert fl d (Span.new s.b.cursor s.b.cursor) with ⟨b', _ | _⟩ <;>
        rw [hh] at this <;> exact this
    · simp only [if_neg he]
      cases fl.ik.checkedAddLen s.b.cursor n with
      | none => exact Nat.le_succ _
      | some x =>
        simp only
        have := insert_len_succ (fl := fl) { s.b with
          cursor := x, tree := { s.b.tree with span := { s.b.tree.span with stop := x } } } d
          (Span.new s.b.cursor x)
        rcases hh : Builder.insert fl { s.b with
          cursor := x, tree := { s.b.tree with span := { s.b.tree.span with stop := x } } } d
          (Span.new s.b.cursor x) with ⟨b', _ | _⟩ <;> rw [hh] at this
        · exact this
        · simp only [Tree.len, pushIndex_nodes]; exact this
  cases op with
  | «open» d => exact hO d _
  | openWith d sp => exact hO d sp
  | close =>
    simp only [Sys.step, Sys.lift, Builder.close]
    cases s.b.parent with
    | none => exact Nat.le_succ _
    | some head =>
      simp only
      cases s.b.tree.nodes[head]? with
      | none => exact Nat.le_succ _
      | some links =>
        simp only
        cases links.parent with
        | none => exact Nat.le_succ _
        | some id =>
          simp only; split
          · simp [Tree.len, Tree.modifyNode]
          · exact Nat.le_succ _
  | token d n => exact hT d n
  | tokenEmpty d => exact hT d 0
  | tokenWith d sp =>
    simp only [Sys.step, Sys.lift, Builder.tokenWith]
    have := insert_len_succ (fl := fl) s.b d sp
    rcases hh : s.b.insert fl d sp with ⟨b', _ | i⟩ <;> rw [hh] at this
    · exact this
    · simp only [Tree.len, modifyOpt_nodes, pushIndex_nodes]
      cases b'.parent <;> simpa [Tree.len] using this
  | checkpoint =>
    simp only [Sys.step]
    have : (s.b.mkCheckpoint fl s.cells).2.1.tree = s.b.tree := by
      unfold Builder.mkCheckpoint
      cases ptrNew fl.width s.b.tree.len with
      | none => rfl
      | some node =>
        simp only
        cases s.b.checkpoint with
        | none => rfl
        | some c =>
          simp only
          cases s.cells[c]? with
          | none => rfl
          | some cell => simp only; split <;> rfl
    rcases hh : s.b.mkCheckpoint fl s.cells with ⟨cs, b', _ | i⟩ <;> rw [hh] at this <;>
      simp only at this <;> simp [this]
  | closeAt k d =>
    simp only [Sys.step]
    cases s.handles[k]? with
    | none => exact Nat.le_succ _
    | some c => exact closeAtCore_len_succ _ _ _ _ _
  | closeAtWith k d sp =>
    simp only [Sys.step]
    cases s.handles[k]? with
    | none => exact Nat.le_succ _
    | some c => exact closeAtCore_len_succ _ _ _ _ _
  | setCursor i => exact Nat.le_succ _


/-! ## One push -/

variable {v : VecCaps}

theorem VecCaps.le_push (v : VecCaps) (cap len : Nat) : cap ≤ v.push cap len := by
  unfold VecCaps.push
  split
  · exact Nat.le_refl _
  · exact Nat.le_of_lt (v.grown_gt cap)

theorem VecCaps.lt_push (v : VecCaps) {cap len : Nat} (h : len ≤ cap) : len < v.push cap len := by
  unfold VecCaps.push
  split
  · assumption
  · have := v.grown_gt cap; omega

theorem VecCaps.push_same (v : VecCaps) {cap len : Nat} (h : len < cap) : v.push cap len = cap :=
  if_pos h

theorem capStep_spec (s : Sys α) (cap : Nat) (op : Op α) (h : s.b.tree.len ≤ cap) :
    (s.step fl op).1.b.tree.len ≤ s.capStep v fl cap op ∧ cap ≤ s.capStep v fl cap op ∧
      (s.capStep v fl cap op ≠ cap → s.b.tree.len = cap ∧ (s.step fl op).1.b.tree.len = cap + 1 ∧
        s.capStep v fl cap op = v.grown cap) := by
  have h1 := Sys.step_len_le (fl := fl) s op
  have h2 := Sys.step_len_le_succ (fl := fl) s op
  unfold Sys.capStep
  split
  · exact ⟨by omega, Nat.le_refl _, fun e => absurd rfl e⟩
  · have h3 := v.lt_push h
    refine ⟨by omega, v.le_push _ _, fun e => ?_⟩
    by_cases hc : s.b.tree.len < cap
    · exact absurd (v.push_same hc) e
    · refine ⟨by omega, by omega, ?_⟩
      unfold VecCaps.push
      rw [if_neg hc]

theorem InUse.le {s : Sys α} {cap : Nat} (h : InUse v fl s cap) : s.b.tree.len ≤ cap := by
  induction h with
  | new => exact Nat.le_refl _
  | call op _ ih => exact (capStep_spec _ _ op ih).1
  | cloned _ _ => exact v.cloned_ge _
  | others _ _ _ ih => exact ih

/-! ## Histories -/

theorem Sys.capRun_append (s : Sys α) (cap : Nat) (ops ops' : List (Op α)) :
    s.capRun v fl cap (ops ++ ops') =
      (s.run fl ops).1.capRun v fl (s.capRun v fl cap ops) ops' := by
  induction ops generalizing s cap with
  | nil => rfl
  | cons op ops ih => exact ih _ _

theorem InUse.run {s : Sys α} {cap : Nat} (h : InUse v fl s cap) (ops : List (Op α)) :
    InUse v fl (s.run fl ops).1 (s.capRun v fl cap ops) := by
  induction ops generalizing s cap with
  | nil => exact h
  | cons op ops ih => exact ih (h.call op)

/-- Nothing is pushed, or there is room. -/
theorem capRun_pos (s : Sys α) (cap : Nat) (ops : List (Op α)) (h0 : cap = 0 → s.b.tree.len = 0) :
    s.capRun v fl cap ops = 0 → (s.run fl ops).1.b.tree.len = 0 := by
  induction ops generalizing s cap with
  | nil => exact h0
  | cons op ops ih =>
    refine ih _ _ ?_
    intro e
    unfold Sys.capStep at e
    split at e
    · next hl => rw [hl]; exact h0 e
    · have := v.le_push cap s.b.tree.len
      have hc : cap = 0 := by omega
      have := v.lt_push (Nat.le_of_eq ((h0 hc).trans hc.symm))
      omega

theorem capRun_zero (s : Sys α) (ops : List (Op α)) (h : (s.run fl ops).1.b.tree.len = 0) :
    s.capRun v fl 0 ops = 0 := by
  induction ops generalizing s with
  | nil => rfl
  | cons op ops ih =>
    have hle : ∀ (ops : List (Op α)) (s : Sys α), s.b.tree.len ≤ (s.run fl ops).1.b.tree.len := by
      intro ops
      induction ops with
      | nil => intro s; exact Nat.le_refl _
      | cons op ops ih => intro s; exact Nat.le_trans (Sys.step_len_le s op) (ih _)
    have h1 := hle ops (s.step fl op).1
    have h2 : ((s.step fl op).1.run fl ops).1.b.tree.len = 0 := h
    have h3 := Sys.step_len_le (fl := fl) s op
    have e : s.capStep v fl 0 op = 0 := by
      unfold Sys.capStep
      rw [if_pos (by omega)]
    show Sys.capRun v fl (s.step fl op).1 (s.capStep v fl 0 op) ops = 0
    rw [e]
    exact ih _ h

/-- The usual argument for doubling. -/
theorem moved_le (hv : ∀ n, 2 * n ≤ v.grown n) (ops : List (Op α)) : ∀ (s : Sys α) (cap m : Nat),
    s.b.tree.len ≤ cap → m ≤ cap → m ≤ 2 * s.b.tree.len →
    m + s.moved v fl cap ops ≤ 2 * (s.run fl ops).1.b.tree.len := by
  induction ops with
  | nil => intro s cap m _ _ h; exact h
  | cons op ops ih =>
    intro s cap m h1 h2 h3
    obtain ⟨a, b, c⟩ := capStep_spec (v := v) (fl := fl) s cap op h1
    have hl := Sys.step_len_le (fl := fl) s op
    show m + ((if s.capStep v fl cap op = cap then 0 else s.b.tree.len) +
      Sys.moved v fl (s.step fl op).1 (s.capStep v fl cap op) ops) ≤
      2 * ((s.step fl op).1.run fl ops).1.b.tree.len
    rw [← Nat.add_assoc]
    refine ih _ _ _ a ?_ ?_
    · split
      · omega
      · next e =>
        obtain ⟨c1, c2, c3⟩ := c e
        have := hv cap
        omega
    · split
      · omega
      · next e =>
        obtain ⟨c1, c2, c3⟩ := c e
        omega

/-! ## Editing -/

/-- The capacity after `n` pushes. -/
def VecCaps.pushes (v : VecCaps) : (cap len n : Nat) → Nat
  | cap, _, 0 => cap
  | cap, len, n + 1 => v.pushes (v.push cap len) (len + 1) n

theorem VecCaps.pushes_ge (v : VecCaps) : ∀ (n cap len : Nat), len ≤ cap →
    len + n ≤ v.pushes cap len n ∧ cap ≤ v.pushes cap len n
  | 0, cap, len, h => ⟨h, Nat.le_refl _⟩
  | n + 1, cap, len, h => by
    obtain ⟨a, b⟩ := v.pushes_ge n (v.push cap len) (len + 1) (v.lt_push h)
    have := v.le_push cap len
    exact ⟨by rw [VecCaps.pushes]; omega, by rw [VecCaps.pushes]; omega⟩

theorem VecCaps.pushes_same (v : VecCaps) : ∀ (n cap len : Nat), len + n ≤ cap →
    v.pushes cap len n = cap
  | 0, _, _, _ => rfl
  | n + 1, cap, len, h => by
    rw [VecCaps.pushes, v.push_same (by omega)]
    exact v.pushes_same n cap (len + 1) (by omega)

theorem capLoop_pushes (changes : List Nat) (nodes : Slice α) : ∀ (fuel : Nat)
    {st st' : ModState α} (cap : Nat), ModState.loop fl changes nodes fuel st = .ok st' →
    ∃ n, st'.output.len = st.output.len + n ∧
      ModState.capLoop v fl changes nodes fuel st cap = v.pushes cap st.output.len n
  | 0, _, _, _, h => by cases h
  | fuel + 1, st, st', cap, h => by
    rw [ModState.loop] at h
    rw [ModState.capLoop]
    obtain ⟨out, refactor, cursor, current⟩ := st
    dsimp only at h ⊢
    cases current with
    | none =>
      simp only [Except.ok.injEq] at h
      subst h
      exact ⟨0, rfl, rfl⟩
    | some p =>
      obtain ⟨node, first⟩ := p
      dsimp only at h ⊢
      cases hp : ptrNew fl.width out.len with
      | none => rw [hp] at h; cases h
      | some nodeId =>
        rw [hp] at h
        dsimp only at h ⊢
        have key : ∀ (st0 : ModState α) (node : Nat) (first : Bool), st0.output = out →
            (match ModState.emit fl nodes st0 nodeId node first with
              | .error e => (.error e : Except Err (ModState α))
              | .ok st => ModState.loop fl changes nodes fuel st) = .ok st' →
            ∃ n, st'.output.len = out.len + n ∧
              (match ModState.emit fl nodes st0 nodeId node first with
                | .error _ => cap
                | .ok st' => ModState.capLoop v fl changes nodes fuel st' (v.push cap out.len)) =
                v.pushes cap out.len n := by
          intro st0 node first ho h
          cases he : ModState.emit fl nodes st0 nodeId node first with
          | error e => rw [he] at h; cases h
          | ok st1 =>
            rw [he] at h
            dsimp only at h ⊢
            have h1 := (emit_cost he).1
            obtain ⟨n, h2, h3⟩ := capLoop_pushes changes nodes fuel (v.push cap out.len) h
            rw [h1, ho] at h2 h3
            refine ⟨n + 1, by omega, ?_⟩
            rw [h3]
            rfl
        by_cases hm : nodeId ∈ changes
        · rw [if_pos hm] at h ⊢
          rcases hs : refactor.skipSubtree nodes node first with ⟨r, _ | ⟨nd, fi⟩⟩
          · rw [hs] at h
            dsimp only at h ⊢
            exact capLoop_pushes changes nodes fuel cap h
          · rw [hs] at h
            dsimp only at h ⊢
            exact key _ nd fi rfl h
        · rw [if_neg hm] at h ⊢
          exact key _ node first rfl h

theorem capModify_pushes {c : ChangeSet} {t t' : Tree α} (cap : Nat)
    (h : c.modify fl t = .ok t') :
    c.capModify v fl t cap = v.pushes (v.withCap cap) 0 t'.len := by
  unfold ChangeSet.modify at h
  dsimp only at h
  cases hl : ModState.loop fl c.changes t.nodes
    ((c.changes.length + 1) * (t.nodes.length + 1) + 1)
    ⟨Tree.empty, ⟨[], none⟩, 0, t.firstNode.map (·, false)⟩ with
  | error e => rw [hl] at h; cases h
  | ok st =>
    rw [hl] at h
    simp only [Except.ok.injEq] at h
    subst h
    obtain ⟨n, h1, h2⟩ := capLoop_pushes (v := v) _ _ _ (v.withCap cap) hl
    unfold ChangeSet.capModify
    rw [h2]
    have : st.output.len = n := by rw [h1]; simp [Tree.len, Tree.empty]
    rw [← this]
    rfl

theorem Roomy.le {t : Tree α} {cap : Nat} (h : Roomy v t cap) : t.len ≤ cap := by
  induction h with
  | built h hb =>
    have : _ := h.le
    unfold Builder.build at hb
    split at hb
    · cases hb
    · simp only [Except.ok.injEq] at hb
      subst hb
      exact this
  | edited h hm _ =>
    rw [capModify_pushes _ hm]
    exact Nat.le_trans (Nat.le_of_eq (Nat.zero_add _).symm)
      (v.pushes_ge _ _ 0 (Nat.zero_le _)).1
  | replaced _ ih =>
    refine Nat.le_trans (Nat.le_of_eq ?_) ih
    simp only [Tree.replace, Tree.len, nodeReplace]
    split <;> simp
  | cloned _ _ => exact v.cloned_ge _

end Syntree
