import Verif.Proof.Obtained
import Verif.Proof.FaultEdit
import Verif.Proof.Pointer

/-! What `modify` depends on. -/

namespace Syntree

variable {α : Type} {fl : Flavor}

/-- More rounds make no difference to a loop that has ended. -/
theorem loop_more {S : List Nat} {nodes : Slice α} (fuel : Nat) : ∀ {st : ModState α},
    ModState.loop fl S nodes fuel st ≠ .error .diverge →
    ModState.loop fl S nodes (fuel + 1) st = ModState.loop fl S nodes fuel st := by
  induction fuel with
  | zero => intro st h; exact absurd rfl h
  | succ fuel ih =>
    intro st h
    rw [ModState.loop.eq_2] at h
    rw [ModState.loop.eq_2 (fuel := fuel + 1), ModState.loop.eq_2 (fuel := fuel)]
    cases hc : st.current with
    | none => rfl
    | some p =>
      obtain ⟨node, first⟩ := p
      simp only [hc] at h
      dsimp only
      cases hp : ptrNew fl.width st.output.len with
      | none => rfl
      | some nodeId =>
        simp only [hp] at h
        dsimp only
        have key : ∀ (st : ModState α) (node : Nat) (first : Bool),
            (match ModState.emit fl nodes st nodeId node first with
              | .error e => (.error e : Except Err (ModState α))
              | .ok st => ModState.loop fl S nodes fuel st) ≠ .error .diverge →
            (match ModState.emit fl nodes st nodeId node first with
              | .error e => (.error e : Except Err (ModState α))
              | .ok st => ModState.loop fl S nodes (fuel + 1) st) =
            (match ModState.emit fl nodes st nodeId node first with
              | .error e => (.error e : Except Err (ModState α))
              | .ok st => ModState.loop fl S nodes fuel st) := by
          intro st node first h
          cases he : ModState.emit fl nodes st nodeId node first with
          | error e => rfl
          | ok st2 => simp only [he] at h; exact ih h
        split
        · rename_i hmem
          simp only [hmem, if_true] at h
          revert h
          generalize st.refactor.skipSubtree nodes node first = q
          obtain ⟨refactor, o⟩ := q
          cases o with
          | none => intro h; exact ih h
          | some x =>
            obtain ⟨node, first⟩ := x
            intro h
            exact key { st with refactor := refactor } node first h
        · rename_i hmem
          simp only [hmem, if_false] at h
          exact key st node first h

theorem loop_enough {S : List Nat} {nodes : Slice α} {st : ModState α} {fuel : Nat}
    (h : ModState.loop fl S nodes fuel st ≠ .error .diverge) (k : Nat) :
    ModState.loop fl S nodes (fuel + k) st = ModState.loop fl S nodes fuel st := by
  induction k with
  | zero => rfl
  | succ k ih => rw [← Nat.add_assoc, loop_more _ (by rw [ih]; exact h), ih]

/-- Only the ids that can be given out are looked up. -/
theorem loop_same {S S' : List Nat} {nodes : Slice α}
    (hS : ∀ i, i < 2 ^ fl.width - 1 → (i ∈ S ↔ i ∈ S')) (fuel : Nat) : ∀ st : ModState α,
    ModState.loop fl S nodes fuel st = ModState.loop fl S' nodes fuel st := by
  induction fuel with
  | zero => intro st; rfl
  | succ fuel ih =>
    intro st
    rw [ModState.loop.eq_2, ModState.loop.eq_2]
    cases hc : st.current with
    | none => rfl
    | some p =>
      obtain ⟨node, first⟩ := p
      dsimp only
      cases hp : ptrNew fl.width st.output.len with
      | none => rfl
      | some nodeId =>
        dsimp only
        have hlt : nodeId < 2 ^ fl.width - 1 := by
          rw [ptrNew_eq] at hp
          split at hp
          · cases hp; assumption
          · cases hp
        by_cases hm : nodeId ∈ S
        · rw [if_pos hm, if_pos ((hS nodeId hlt).1 hm)]
          generalize st.refactor.skipSubtree nodes node first = q
          obtain ⟨refactor, o⟩ := q
          cases o with
          | none => exact ih _
          | some x =>
            obtain ⟨node, first⟩ := x
            simp only [ih]
        · rw [if_neg hm, if_neg (fun h => hm ((hS nodeId hlt).2 h))]
          cases ModState.emit fl nodes st nodeId node first with
          | error e => rfl
          | ok st2 => exact ih st2

/-- If the loop ends well, then no id beyond the number of nodes made has been looked up. -/
theorem loop_agree {S S' : List Nat} {nodes : Slice α} {st' : ModState α}
    (hS : ∀ i, i ≤ st'.output.len → (i ∈ S ↔ i ∈ S')) (fuel : Nat) : ∀ st : ModState α,
    ModState.loop fl S nodes fuel st = .ok st' → ModState.loop fl S' nodes fuel st = .ok st' := by
  induction fuel with
  | zero => intro st h; cases h
  | succ fuel ih =>
    intro st h
    have hle : st.output.len ≤ st'.output.len := (loop_grows _ h).1
    rw [ModState.loop.eq_2] at h ⊢
    cases hc : st.current with
    | none => simp only [hc] at h; exact h
    | some p =>
      obtain ⟨node, first⟩ := p
      simp only [hc] at h
      dsimp only
      cases hp : ptrNew fl.width st.output.len with
      | none => simp only [hp] at h; cases h
      | some nodeId =>
        simp only [hp] at h
        dsimp only
        have hlt : nodeId ≤ st'.output.len := by
          rw [ptrNew_eq] at hp
          split at hp
          · cases hp; exact hle
          · cases hp
        have key : ∀ (st : ModState α) (node : Nat) (first : Bool),
            (match ModState.emit fl nodes st nodeId node first with
              | .error e => (.error e : Except Err (ModState α))
              | .ok st => ModState.loop fl S nodes fuel st) = .ok st' →
            (match ModState.emit fl nodes st nodeId node first with
              | .error e => (.error e : Except Err (ModState α))
              | .ok st => ModState.loop fl S' nodes fuel st) = .ok st' := by
          intro st node first h
          cases he : ModState.emit fl nodes st nodeId node first with
          | error e => simp only [he] at h; cases h
          | ok st2 => simp only [he] at h; exact ih st2 h
        by_cases hm : nodeId ∈ S
        · rw [if_pos hm] at h
          rw [if_pos ((hS nodeId hlt).1 hm)]
          revert h
          generalize st.refactor.skipSubtree nodes node first = q
          obtain ⟨refactor, o⟩ := q
          cases o with
          | none => exact ih _
          | some x =>
            obtain ⟨node, first⟩ := x
            exact key { st with refactor := refactor } node first
        · rw [if_neg hm] at h
          rw [if_neg (fun h => hm ((hS nodeId hlt).2 h))]
          exact key st node first h

/-- Where the loop starts. -/
def modStart (t : Tree α) : ModState α := ⟨Tree.empty, ⟨[], none⟩, 0, t.firstNode.map (·, false)⟩

/-- `modify` is the loop with any number of rounds that suffices. -/
theorem modify_any (c : ChangeSet) (t : Tree α) (h : c.modify fl t ≠ .error .diverge) (k : Nat) :
    c.modify fl t = match ModState.loop fl c.changes t.nodes
        ((c.changes.length + 1) * (t.nodes.length + 1) + 1 + k) (modStart t) with
      | .error e => .error e
      | .ok st => .ok { st.output with span := { st.output.span with stop := st.cursor } } := by
  have hne : ModState.loop fl c.changes t.nodes
      ((c.changes.length + 1) * (t.nodes.length + 1) + 1) (modStart t) ≠ .error .diverge := by
    intro e
    refine h ?_
    unfold ChangeSet.modify
    dsimp only
    unfold modStart at e
    rw [e]
  rw [loop_enough hne k]
  rfl

theorem Obtained.modify_ends {t : Tree α} (h : Obtained t) (c : ChangeSet) :
    c.modify fl t ≠ .error .diverge := by
  obtain ⟨_, _, _, _, _, ⟨e, _, h2⟩ | ⟨n, t', _, h2, _⟩⟩ := h.sane.modify (fl := fl) c
  · rw [h2]; intro e; cases e
  · rw [h2]; intro e; cases e

end Syntree
