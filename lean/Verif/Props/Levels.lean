import Verif.Proof.Frames

/-!
# C22, C23: checkpoints of another level, in every history

Here nothing is assumed about the history: any checkpoint may have been used any number of times,
also when it was swallowed, and calls may have failed.
-/

namespace Syntree

variable {α : Type} {fl : Flavor}

/-- C22: a checkpoint that was taken while another node was being built is rejected by `close_at` and
`close_at_with`, and nothing changes. -/
theorem C22_any_history {pre mid : List (Op α)} {k : Nat} {op : Op α} {d : α} {e : Option Span}
    (hk : ((Sys.init.run fl pre).1.step fl .checkpoint).2 = .ok (.handle k))
    (hu : UsesAt op k d e)
    (hne : building fl pre ≠ building fl (pre ++ .checkpoint :: mid)) :
    (Sys.init.run fl (pre ++ .checkpoint :: mid)).1.step fl op =
      ((Sys.init.run fl (pre ++ .checkpoint :: mid)).1, .error .closeAtError) := by
  obtain ⟨c, cell, h1, h2, h3⟩ := checkpoint_later (mid := mid) hk
  have hA := (Alone.init (α := α) fl).run_open (pre ++ .checkpoint :: mid)
  refine (closeAt_rejects hA h1 h2 hu).1 ?_
  rcases h3 with h3 | h3
  · rw [h3, ← building_parent]; exact hne
  · exact h3.ne_parent hA

/-- C23: once a checkpoint has been rejected although the node was being built that it was taken in,
it is rejected for good: after any further calls `close_at` fails with it and changes nothing. -/
theorem C23_spent {pre mid more : List (Op α)} {k : Nat} {op op' : Op α} {d d' : α}
    {e e' : Option Span}
    (hk : ((Sys.init.run fl pre).1.step fl .checkpoint).2 = .ok (.handle k))
    (hb : building fl pre = building fl (pre ++ .checkpoint :: mid))
    (hu : UsesAt op k d e)
    (hr : ((Sys.init.run fl (pre ++ .checkpoint :: mid)).1.step fl op).2 = .error .closeAtError)
    (hu' : UsesAt op' k d' e') :
    (Sys.init.run fl (pre ++ .checkpoint :: mid ++ more)).1.step fl op' =
      ((Sys.init.run fl (pre ++ .checkpoint :: mid ++ more)).1, .error .closeAtError) := by
  obtain ⟨c, cell, h1, h2, h3⟩ := checkpoint_later (mid := mid) hk
  have hA := (Alone.init (α := α) fl).run_open (pre ++ .checkpoint :: mid)
  have hf := (FramesOk.run (Alone.init (α := α) fl) .init (pre ++ .checkpoint :: mid)).1
  have hg : Gone (Sys.init.run fl (pre ++ .checkpoint :: mid)).1
      (openIds [] (pre ++ .checkpoint :: mid)
        (Sys.init.run fl (pre ++ .checkpoint :: mid)).2) cell.parent := by
    rcases h3 with h3 | h3
    · exfalso
      have := (closeAt_rejects hA h1 h2 hu).2 (by rw [h3, hb, building_parent])
      rw [hr] at this
      unfold newNode at this
      split at this <;> simp at this
    · exact h3
  have hA2 := hA.run_open more
  obtain ⟨cell', h4, h5⟩ := (hf.run hA more).2 c cell h2
  have hg' : Gone ((Sys.init.run fl (pre ++ .checkpoint :: mid)).1.run fl more).1
      (openIds (openIds [] (pre ++ .checkpoint :: mid)
        (Sys.init.run fl (pre ++ .checkpoint :: mid)).2) more
        ((Sys.init.run fl (pre ++ .checkpoint :: mid)).1.run fl more).2) cell'.parent := by
    rcases h5 with h5 | h5
    · rw [h5]
      refine hg.mono ?_ (openIds_ge hA more)
      have := hA.len_run more
      simp only [Tree.len] at this
      omega
    · exact h5
  have e1 : (Sys.init.run fl (pre ++ .checkpoint :: mid ++ more)).1 =
      ((Sys.init.run fl (pre ++ .checkpoint :: mid)).1.run fl more).1 := by
    rw [Sys.run_append]
  rw [e1]
  exact (closeAt_rejects hA2 (hmore_run hA more h1) h4 hu').1 (hg'.ne_parent hA2)

/-- C23: what `close_at` with a checkpoint says in any history of the builder: it is rejected, or a node
is made as long as there are pointers left; the latter only while the node is being built that the
checkpoint was taken in. -/
theorem C23_accepted {pre mid : List (Op α)} {k : Nat} {op : Op α} {d : α} {e : Option Span}
    (hk : ((Sys.init.run fl pre).1.step fl .checkpoint).2 = .ok (.handle k)) (hu : UsesAt op k d e) :
    let s := (Sys.init.run fl (pre ++ .checkpoint :: mid)).1
    s.step fl op = (s, .error .closeAtError) ∨
    (building fl pre = building fl (pre ++ .checkpoint :: mid) ∧
      (s.step fl op).2 = if s.b.tree.len < 2 ^ fl.width - 1 then .ok (.id s.b.tree.len)
        else .error .overflow) := by
  obtain ⟨c, cell, h1, h2, h3⟩ := checkpoint_later (mid := mid) hk
  have hA := (Alone.init (α := α) fl).run_open (pre ++ .checkpoint :: mid)
  by_cases hp : cell.parent = (Sys.init.run fl (pre ++ .checkpoint :: mid)).1.b.parent
  · refine .inr ⟨?_, (closeAt_rejects hA h1 h2 hu).2 hp⟩
    rcases h3 with h3 | h3
    · rw [← h3, hp, building_parent]
    · exact absurd hp (h3.ne_parent hA)
  · exact .inl ((closeAt_rejects hA h1 h2 hu).1 hp)

/-! Checkpoint 1 is swallowed, used deep inside, a token goes to the wrong place (no specification
covers that), and then a node is opened. -/

example :
    let pre : List (Op Nat) := [.checkpoint, .token 1 1]
    let mid : List (Op Nat) := [.token 2 1, .closeAt 0 3, .closeAt 1 4, .token 5 1]
    ((Sys.init.run Flavor.default pre).1.step Flavor.default .checkpoint).2 = .ok (.handle 1) ∧
    building Flavor.default pre = none ∧
    building Flavor.default (pre ++ .checkpoint :: mid) = none ∧
    ((Sys.init.run Flavor.default (pre ++ .checkpoint :: mid)).1.step Flavor.default
      (.closeAt 1 9)).2 = .error .closeAtError ∧
    building Flavor.default (pre ++ .checkpoint :: (mid ++ [.open 6])) = some 5 ∧
    ((Sys.init.run Flavor.default (pre ++ .checkpoint :: (mid ++ [.open 6]))).1.step Flavor.default
      (.closeAt 0 9)).2 = .error .closeAtError ∧
    ((Sys.init.run Flavor.default (pre ++ .checkpoint :: (mid ++ [.open 6, .close]))).1.step
      Flavor.default (.closeAt 0 9)).2 = .ok (.id 6) :=
  ⟨rfl, rfl, rfl, rfl, rfl, rfl, rfl⟩

end Syntree
