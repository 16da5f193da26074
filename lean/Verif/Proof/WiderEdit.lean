import Verif.Proof.Wider
import Verif.Model.Edit

/-! # `modify` with a larger index or larger pointers -/

namespace Syntree

variable {α : Type} {a b : Flavor} {i j : Nat}

/-- The flavor matters for one node only by the end of a token. -/
theorem emit_flavors (hk : a.keepIdx = b.keepIdx) {nodes : Slice α} {st : ModState α} {nodeId node : Nat} {first : Bool}
    (h : ∀ links, nodes[node]? = some links → (links.first.isNone && ! links.span.isEmpty) = true →
      a.ik.checkedAddLen st.cursor (links.span.len a.ik) = b.ik.checkedAddLen st.cursor (links.span.len b.ik)) :
    ModState.emit a nodes st nodeId node first = ModState.emit b nodes st nodeId node first := by
  unfold ModState.emit
  cases e : nodes[node]? with
  | none => rfl
  | some links =>
    cases hc : (links.first.isNone && ! links.span.isEmpty) with
    | false => simp only [hc, Bool.false_eq_true, if_false]
    | true => simp only [hc, if_true, h links e hc, Tree.pushIndex, hk]

/-- What a copied node does to the cursor and to the number of nodes. -/
theorem emit_adds {nodes : Slice α} {st st' : ModState α} {nodeId node : Nat} {first : Bool} (hb : b.ik = .bits j)
    (h : ModState.emit b nodes st nodeId node first = .ok st') :
    st'.output.len = st.output.len + 1 ∧ st.cursor ≤ st'.cursor ∧
    ∀ links, nodes[node]? = some links → (links.first.isNone && ! links.span.isEmpty) = true →
      st'.cursor = st.cursor + links.span.len b.ik ∧ st'.cursor < 2 ^ j := by
  unfold ModState.emit at h
  cases e : nodes[node]? with
  | none => rw [e] at h; simp at h
  | some links =>
    rw [e] at h
    have hlen : ∀ (t : Tree α) (o : Option Nat) (f : Links α → Links α), (t.modifyOpt o f).nodes.length = t.nodes.length := by
      intro t o f; cases o <;> simp [Tree.modifyOpt, Tree.modifyNode]
    cases hc : (links.first.isNone && ! links.span.isEmpty) with
    | false =>
      simp only [hc, Bool.false_eq_true, if_false] at h
      simp only [Except.ok.injEq] at h
      subst h
      refine ⟨?_, Nat.le_refl _, ?_⟩
      · simp only [Tree.len, Tree.push, List.length_append, List.length_singleton, hlen]
        split <;> (try rw [hlen]) <;> split <;> rfl
      · intro l hl; cases hl; simp [hc]
    | true =>
      simp only [hc, if_true, hb, IndexKind.checkedAddLen] at h
      split at h
      · simp at h
      · rename_i out c span he
        split at he
        · cases he
        · rename_i c' hcc
          split at hcc
          · cases hcc
            simp only [Except.ok.injEq, Prod.mk.injEq] at he
            obtain ⟨e1, e2, e3⟩ := he
            simp only [Except.ok.injEq] at h
            subst h
            subst e2
            refine ⟨?_, Nat.le_add_right _ _, ?_⟩
            · simp only [Tree.len, Tree.push, List.length_append, List.length_singleton, hlen, ← e1,
                Tree.pushIndex]
              split <;> (try rw [hlen]) <;> split <;> (try split) <;> (try rw [hlen]) <;> rfl
            · intro l hl _; cases hl; rw [hb]; exact ⟨rfl, by assumption⟩
          · cases hcc

theorem Wider.emit_same (w : Wider a b i j) {nodes : Slice α} {st st' : ModState α} {nodeId node : Nat} {first : Bool}
    (h : ModState.emit a nodes st nodeId node first = .ok st' ∨
      ModState.emit b nodes st nodeId node first = .ok st' ∧ st'.cursor < 2 ^ i) :
    ModState.emit a nodes st nodeId node first = ModState.emit b nodes st nodeId node first := by
  have hp : 2 ^ i ≤ 2 ^ j := Nat.pow_le_pow_right (by omega) w.le
  refine emit_flavors w.keep ?_
  intro links hl hc
  have e : links.span.len a.ik = links.span.len b.ik := by rw [w.left, w.right]; rfl
  have hlt : st.cursor + links.span.len b.ik < 2 ^ i := by
    rcases h with h | ⟨h, h'⟩
    · have := (emit_adds w.left h).2.2 links hl hc
      rw [e] at this; omega
    · have := (emit_adds w.right h).2.2 links hl hc
      omega
  rw [e, w.left, w.right]
  rw [w.right] at hlt
  simp only [IndexKind.checkedAddLen]
  rw [if_pos hlt, if_pos (by omega)]

theorem loop_adds (hb : b.ik = .bits j) {changes : List Nat} {nodes : Slice α} : ∀ {fuel : Nat} {st st' : ModState α},
    ModState.loop b changes nodes fuel st = .ok st' → st.cursor ≤ st'.cursor ∧ st.output.len ≤ st'.output.len
  | 0, st, st', h => by simp [ModState.loop] at h
  | fuel + 1, st, st', h => by
    unfold ModState.loop at h
    split at h
    · simp only [Except.ok.injEq] at h; subst h; exact ⟨Nat.le_refl _, Nat.le_refl _⟩
    · split at h
      · simp at h
      · split at h
        · split at h
          · have := loop_adds hb h
            exact this
          · split at h
            · simp at h
            · rename_i he
              obtain ⟨g1, g2, _⟩ := emit_adds hb he
              have := loop_adds hb h
              simp only at g1 g2
              omega
        · split at h
          · simp at h
          · rename_i he
            obtain ⟨g1, g2, _⟩ := emit_adds hb he
            have := loop_adds hb h
            omega

/-- The two loops agree if the one of the smaller flavor succeeds, or if that of the larger one does with a result
that fits. -/
theorem Wider.loop_same (w : Wider a b i j) {changes : List Nat} {nodes : Slice α} :
    ∀ {fuel : Nat} {st st' : ModState α},
      ModState.loop a changes nodes fuel st = .ok st' ∨
        ModState.loop b changes nodes fuel st = .ok st' ∧ st'.cursor < 2 ^ i ∧ st'.output.len < 2 ^ a.width - 1 →
      ModState.loop a changes nodes fuel st = ModState.loop b changes nodes fuel st
  | 0, st, st', _ => rfl
  | fuel + 1, st, st', h => by
    have hptr : st.current ≠ none → st.output.len < 2 ^ a.width - 1 := by
      intro hcur
      rcases h with h | ⟨h, h1, h2⟩
      · unfold ModState.loop at h
        split at h
        · rename_i hc; exact absurd hc hcur
        · split at h
          · simp at h
          · rename_i hp
            rw [ptrNew_eq] at hp
            split at hp
            · assumption
            · cases hp
      · have := loop_adds w.right h; omega
    have step : ∀ {st₀ st₁ : ModState α} {nodeId node : Nat} {first : Bool} ,
        (match ModState.emit a nodes st₀ nodeId node first with
          | .error e => (Except.error e : Except Err (ModState α))
          | .ok st => ModState.loop a changes nodes fuel st) = .ok st₁ ∨
        (match ModState.emit b nodes st₀ nodeId node first with
          | .error e => (Except.error e : Except Err (ModState α))
          | .ok st => ModState.loop b changes nodes fuel st) = .ok st₁ ∧ st₁.cursor < 2 ^ i ∧
          st₁.output.len < 2 ^ a.width - 1 →
        (match ModState.emit a nodes st₀ nodeId node first with
          | .error e => (Except.error e : Except Err (ModState α))
          | .ok st => ModState.loop a changes nodes fuel st) =
        (match ModState.emit b nodes st₀ nodeId node first with
          | .error e => (Except.error e : Except Err (ModState α))
          | .ok st => ModState.loop b changes nodes fuel st) := by
      intro st₀ st₁ nodeId node first h
      rcases h with h | ⟨h, h1, h2⟩
      · cases he : ModState.emit a nodes st₀ nodeId node first with
        | error e => rw [he] at h; simp at h
        | ok st₂ =>
          rw [he] at h
          rw [w.emit_same (.inl he)] at he
          simp only [he]
          exact w.loop_same (.inl h)
      · cases he : ModState.emit b nodes st₀ nodeId node first with
        | error e => rw [he] at h; simp at h
        | ok st₂ =>
          rw [he] at h
          have := loop_adds w.right h
          have hsame := w.emit_same (.inr ⟨he, by omega⟩)
          rw [he] at hsame
          simp only [hsame]
          exact w.loop_same (.inr ⟨h, h1, h2⟩)
    cases hcur : st.current with
    | none => simp only [ModState.loop, hcur]
    | some x =>
      obtain ⟨node, first⟩ := x
      obtain ⟨p1, p2⟩ := ptrNew_wider w.width (hptr (by rw [hcur]; simp))
      simp only [ModState.loop, hcur, p1, p2] at h ⊢
      by_cases hin : st.output.len ∈ changes
      · simp only [hin, if_true] at h ⊢
        cases hs : st.refactor.skipSubtree nodes node first with
        | mk refactor o =>
          cases o with
          | none => simp only [hs] at h ⊢; exact w.loop_same h
          | some y => obtain ⟨n', f'⟩ := y; simp only [hs] at h ⊢; exact step h
      · simp only [hin, if_false] at h ⊢
        exact step h

end Syntree
