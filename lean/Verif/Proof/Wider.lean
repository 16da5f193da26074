import Verif.Proof.Cursor
import Verif.Proof.Client
import Verif.Spec.Wider

/-!
Two flavors that differ in the size of the index and of the pointers: a call behaves in the same way,
or it fails with `Overflow` in the smaller one.
-/

namespace Syntree

variable {α : Type}

theorem Wider.sized {i j pw pw' : Nat} (h : i ≤ j) (h' : pw ≤ pw') :
    Wider (Flavor.sized i pw) (Flavor.sized j pw') i j := ⟨rfl, rfl, h, h', rfl⟩

variable {a b : Flavor} {i j : Nat}

theorem ptrNew_wider (h : a.width ≤ b.width) {n : Nat} (hn : n < 2 ^ a.width - 1) :
    ptrNew a.width n = some n ∧ ptrNew b.width n = some n := by
  have := Nat.pow_le_pow_right (n := 2) (by omega) h
  rw [ptrNew_eq, ptrNew_eq, if_pos hn, if_pos (by omega)]
  exact ⟨rfl, rfl⟩

theorem insert_ik (h : a.width ≤ b.width) {x : Builder α} (hn : x.tree.len < 2 ^ a.width - 1)
    (d : α) (sp : Span) : x.insert a d sp = x.insert b d sp := by
  obtain ⟨h1, h2⟩ := ptrNew_wider h hn
  unfold Builder.insert; rw [h1, h2]

theorem Wider.token (w : Wider a b i j) {x : Builder α} (hn : x.tree.len < 2 ^ a.width - 1) (d : α)
    (len : Nat) :
    x.token a d len = x.token b d len ∨
      (x.token a d len = (x, .error .overflow) ∧ len ≠ 0 ∧ 2 ^ i ≤ x.cursor + len ∧
        x.cursor + len < 2 ^ j) := by
  have hp : 2 ^ i ≤ 2 ^ j := Nat.pow_le_pow_right (by omega) w.le
  have ins : ∀ (c : Nat) (st : Nat) (sp : Span),
      Builder.insert a { x with cursor := c, tree := { x.tree with span := ⟨st, c⟩ } } d sp =
      Builder.insert b { x with cursor := c, tree := { x.tree with span := ⟨st, c⟩ } } d sp :=
    fun c st sp => insert_ik w.width (x := { x with cursor := c, tree :=
      { x.tree with span := ⟨st, c⟩ } }) hn d sp
  by_cases h0 : len = 0
  · left
    unfold Builder.token
    subst h0
    simp only [w.left, w.right, IndexKind.lenIsEmpty, beq_self_eq_true, if_true,
      insert_ik w.width hn]
  · have hb : (len == 0) = false := by simpa using h0
    by_cases h1 : x.cursor + len < 2 ^ i
    · left
      unfold Builder.token
      have h2 : x.cursor + len < 2 ^ j := by omega
      simp only [w.left, w.right, IndexKind.lenIsEmpty, IndexKind.checkedAddLen, h1, h2, if_true, hb,
        Bool.false_eq_true, if_false, ins, Tree.pushIndex, w.keep]
    · by_cases h2 : x.cursor + len < 2 ^ j
      · right
        refine ⟨?_, h0, by omega, h2⟩
        unfold Builder.token
        simp [w.left, IndexKind.lenIsEmpty, IndexKind.checkedAddLen, h1, h0]
      · left
        unfold Builder.token
        simp [w.left, w.right, IndexKind.lenIsEmpty, IndexKind.checkedAddLen, h1, h2, h0]

/-- A call that fails because the pointers are used up. -/
theorem step_full {fl : Flavor} {s : Sys α} (hn : ¬ s.b.tree.len < 2 ^ fl.width - 1) (op : Op α) :
    (s.step fl op).2 = .error .overflow ∨ ∀ fl', s.step fl op = s.step fl' op := by
  have hp : ptrNew fl.width s.b.tree.len = none := by rw [ptrNew_eq, if_neg hn]
  have ins : ∀ (x : Builder α) d sp, x.tree.len = s.b.tree.len →
      x.insert fl d sp = (x, .error .overflow) := by
    intro x d sp h
    unfold Builder.insert
    rw [h, hp]
  cases op with
  | «open» d => left; simp [Sys.step, Sys.lift, Builder.open, Builder.openWith, ins, Except.map]
  | openWith d sp => left; simp [Sys.step, Sys.lift, Builder.openWith, ins, Except.map]
  | close => exact .inr fun _ => rfl
  | setCursor i => exact .inr fun _ => rfl
  | token d len =>
    left
    simp only [Sys.step, Sys.lift, Builder.token]
    cases he : fl.ik.lenIsEmpty len with
    | true => simp [ins, Except.map]
    | false =>
      cases hc : fl.ik.checkedAddLen s.b.cursor len with
      | none => simp [Except.map]
      | some c =>
        simp only [Bool.false_eq_true, if_false]
        rw [ins { s.b with cursor := c, tree := { s.b.tree with
          span := ⟨s.b.tree.span.start, c⟩ } } d _ rfl]
        rfl
  | tokenEmpty d =>
    left
    simp only [Sys.step, Sys.lift, Builder.tokenEmpty, Builder.token, lenIsEmpty_zero, if_true]
    rw [ins _ _ _ rfl]; rfl
  | tokenWith d sp => left; simp [Sys.step, Sys.lift, Builder.tokenWith, ins, Except.map]
  | checkpoint => left; simp [Sys.step, Builder.mkCheckpoint, hp]
  | closeAt k d =>
    cases hk : s.handles[k]? with
    | none => right; intro fl'; simp [Sys.step, hk]
    | some c =>
      cases hcell : s.cells[c]? with
      | none => right; intro fl'; simp [Sys.step, hk, Builder.closeAt, Builder.closeAtCore, hcell]
      | some cell =>
        by_cases hx : cell.parent ≠ s.b.parent
        · right; intro fl'; simp [Sys.step, hk, Builder.closeAt, Builder.closeAtCore, hcell, hx]
        · left; simp [Sys.step, hk, Builder.closeAt, Builder.closeAtCore, hcell, hx, hp, Except.map]
  | closeAtWith k d sp =>
    cases hk : s.handles[k]? with
    | none => right; intro fl'; simp [Sys.step, hk]
    | some c =>
      cases hcell : s.cells[c]? with
      | none =>
        right; intro fl'; simp [Sys.step, hk, Builder.closeAtWith, Builder.closeAtCore, hcell]
      | some cell =>
        by_cases hx : cell.parent ≠ s.b.parent
        · right; intro fl'; simp [Sys.step, hk, Builder.closeAtWith, Builder.closeAtCore, hcell, hx]
        · left
          simp [Sys.step, hk, Builder.closeAtWith, Builder.closeAtCore, hcell, hx, hp, Except.map]

/-- One call. -/
theorem Wider.step (w : Wider a b i j) (s : Sys α) (op : Op α) :
    s.step a op = s.step b op ∨
      ((s.step a op).2 = .error .overflow ∧ Short a i j s op) := by
  by_cases hn : s.b.tree.len < 2 ^ a.width - 1
  · obtain ⟨hp1, hp2⟩ := ptrNew_wider w.width hn
    cases op with
    | token d len =>
      rcases w.token hn d len with h | ⟨h1, h2⟩
      · left; simp only [Sys.step, h]
      · right
        refine ⟨?_, .inr ⟨?_, d, len, rfl, h2⟩⟩
        · simp only [Sys.step, Sys.lift, h1]; rfl
        · simp only [Sys.step, Sys.lift, h1]
    | tokenEmpty d =>
      left
      rcases w.token hn d 0 with h | ⟨_, h, _⟩
      · simp only [Sys.step, Builder.tokenEmpty, h]
      · exact absurd rfl h
    | «open» d => left; simp only [Sys.step, Builder.open, Builder.openWith, insert_ik w.width hn]
    | openWith d sp => left; simp only [Sys.step, Builder.openWith, insert_ik w.width hn]
    | close => left; rfl
    | tokenWith d sp =>
      left; simp only [Sys.step, Builder.tokenWith, insert_ik w.width hn, Tree.pushIndex, w.keep]
    | checkpoint => left; simp only [Sys.step, Builder.mkCheckpoint, hp1, hp2]
    | closeAt k d =>
      left
      simp only [Sys.step, Builder.closeAt, Builder.closeAtCore, hp1, hp2, insert_ik w.width hn]
    | closeAtWith k d sp =>
      left
      simp only [Sys.step, Builder.closeAtWith, Builder.closeAtCore, hp1, hp2,
        insert_ik w.width hn]
    | setCursor i => left; rfl
  · rcases step_full hn op with h | h
    · exact .inr ⟨h, .inl (by omega)⟩
    · exact .inl (h b)

/-- A whole history. -/
theorem Wider.run (w : Wider a b i j) (ops : List (Op α)) (s : Sys α) :
    s.run a ops = s.run b ops ∨
      ∃ pre op post, ops = pre ++ op :: post ∧ s.run a pre = s.run b pre ∧
        ((s.run b pre).1.step a op).2 = .error .overflow ∧ Short a i j (s.run b pre).1 op := by
  induction ops generalizing s with
  | nil => exact .inl rfl
  | cons op ops ih =>
    rcases w.step s op with h | ⟨h1, h2⟩
    · rcases ih (s.step a op).1 with h' | ⟨pre, op', post, rfl, e, h3, h4⟩
      · left; simp only [Sys.run, ← h, h']
      · right
        refine ⟨op :: pre, op', post, rfl, ?_, ?_, ?_⟩
        · simp only [Sys.run, ← h, e]
        · simp only [Sys.run, ← h]; exact h3
        · simp only [Sys.run, ← h]; exact h4
    · exact .inr ⟨[], op, ops, rfl, rfl, h1, h2⟩

end Syntree
