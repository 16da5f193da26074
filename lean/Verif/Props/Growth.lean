import Verif.Proof.EditCost
import Verif.Props.Anyhow
import Verif.Props.Macro
import Verif.Props.Cost

/-!
# How large the result of an edit can get, and how long it takes: C87
-/

namespace Syntree

open Forest

variable {α : Type} {fl : Flavor} {t : Tree α}

/-- C87: whatever tree a program has got hold of, if the ids registered for removal are among the
`k` ids of the list `S`, then the result of `modify` has at most `k + 1` times as many nodes as the
input. -/
theorem C87_bounded_growth (h : Obtained t) (c : ChangeSet) {S : List Nat}
    (hs : ∀ i ∈ c.changes, i ∈ S) {t' : Tree α} (hm : c.modify fl t = .ok t') :
    t'.len ≤ (S.length + 1) * t.len := by
  obtain ⟨F, h1, h2, _, _, h5⟩ := h.sane.half
  obtain ⟨g1, _, g3⟩ := modify_cost (fl := fl) h1 h2 h5 c hs
  have := (g3 t' hm).1
  omega

/-- Two ids, registered three times: at most three times as many. -/
example {t' : Tree Nat} (hm : (((ChangeSet.new.remove 1).remove 7).remove 1).modify Flavor.default
    wildTree = .ok t') : t'.len ≤ 3 * 6 :=
  C87_bounded_growth (S := [1, 7]) wild_obtained _ (by simp [ChangeSet.new, ChangeSet.remove]) hm

/-- C87: nothing registered, nothing added. -/
theorem C87_no_growth (h : Obtained t) {t' : Tree α} (hm : ChangeSet.new.modify fl t = .ok t') :
    t'.len ≤ t.len := by
  simpa using C87_bounded_growth (S := []) h ChangeSet.new (by simp [ChangeSet.new]) hm

example : ∃ t', ChangeSet.new.modify Flavor.default wildTree = .ok t' ∧ t'.len ≤ wildTree.len := by
  rcases C50_modify_repairs (fl := Flavor.default) wild_obtained ChangeSet.new with h | ⟨t', G, h1, _⟩
  · exact absurd h (by
      rw [show ChangeSet.new.modify Flavor.default wildTree = .ok _ from rfl]; simp)
  · exact ⟨t', h1, C87_no_growth wild_obtained h1⟩

/-- C87: the bound is reached, but for `k` nodes: for all numbers `m` and `k` there is a tree of
`m + 2` nodes, built without anything going wrong, and a set of `k` ids such that the tree with
these "removed" has `(k + 1) * (m + 1) + 1` nodes, provided the flavor has room for them. -/
theorem C87_growth_is_reached (m k : Nat) (hw : (k + 1) * (m + 1) + 1 ≤ 2 ^ fl.width - 1) :
    ∃ (lit : Lit Nat) (t t' : Tree Nat) (c : ChangeSet), lit.tree fl = .ok t ∧ t.len = m + 2 ∧
      c.changes.length = k ∧ c.changes.Nodup ∧ c.modify fl t = .ok t' ∧
      t'.len = (k + 1) * (m + 1) + 1 := by
  obtain ⟨e1, e2, e3⟩ := emptyTokens_spec fl.ik (m + 1)
  have haddr : Lit.Addressable fl.ik 0 := by
    cases fl.ik <;> simp [Lit.Addressable, Nat.two_pow_pos]
  have hle : m + 1 ≤ (k + 1) * (m + 1) := Nat.le_mul_of_pos_left _ (by omega)
  obtain ⟨t, h1, _, h3, _, h5⟩ := C01_literal_round_trip (fl := fl)
    (.node 0 (emptyTokens (m + 1)) .nil) (by simp [Lit.plain, e1])
    ⟨by simp only [Lit.count, e2]; omega, by simpa [Lit.len, e3] using haddr⟩
  simp only [Lit.layout, e3, emptyTokens_layout, Nat.add_zero, Nat.zero_add] at h5
  obtain ⟨G, g1, g2, g3⟩ := edited_again m k k 0 (by omega)
  rw [Nat.zero_mul] at g1
  have hE : Edited (multiples (m + 1) k) false 0
      (.cons ⟨0, 0, ⟨0, 0⟩⟩ (emptyLeaves 1 (m + 1)) .nil) G false := by
    refine .keep ?_ g1
    intro hh
    obtain ⟨q, _, e⟩ := mem_multiples.1 hh
    have := Nat.mul_le_mul_right (m + 1) (show 1 ≤ q + 1 by omega)
    omega
  obtain ⟨l1, l2⟩ := mute_literal fl.ik G g2
  obtain ⟨t', k1, _, _, k4⟩ := (copy_edited (fl := fl) h5.represents (c := ⟨multiples (m + 1) k⟩)
    hE).1 ⟨⟨by rw [l1, g3]; exact hw, by rw [l2]; exact haddr⟩, by simp⟩
  refine ⟨_, t, t', ⟨multiples (m + 1) k⟩, h1, ?_, by simp [multiples], ?_, k1, ?_⟩
  · rw [h3]; simp only [Lit.count, e2]; omega
  · simp only [multiples]
    refine List.Pairwise.map _ ?_ List.nodup_range
    intro a b hab e
    exact hab (by have := Nat.eq_of_mul_eq_mul_right (by omega) e; omega)
  · rw [k4, g3]

/-- Four nodes, ten ids: thirty-four nodes. -/
example : ∃ (lit : Lit Nat) (t t' : Tree Nat) (c : ChangeSet),
    lit.tree Flavor.default = .ok t ∧ t.len = 4 ∧ c.changes.length = 10 ∧ c.changes.Nodup ∧
    c.modify Flavor.default t = .ok t' ∧ t'.len = 34 :=
  C87_growth_is_reached 2 10 (by decide)

/-- C87: the time `modify` takes, also if it fails. Its loop looks at its condition at most
`(k + 1) * len() + 1` times; the loop inside it, which goes up again, takes no more rounds than
that in all. If it succeeds, the number is that of the nodes of the result and one or two more. -/
theorem C87_modify_rounds (h : Obtained t) (c : ChangeSet) {S : List Nat}
    (hs : ∀ i ∈ c.changes, i ∈ S) :
    (c.steps fl t).1 ≤ (S.length + 1) * t.len + 1 ∧ (c.steps fl t).2 ≤ (c.steps fl t).1 ∧
    ∀ t', c.modify fl t = .ok t' →
      (c.steps fl t).1 = t'.len + 1 ∨ (c.steps fl t).1 = t'.len + 2 := by
  obtain ⟨F, h1, h2, _, _, h5⟩ := h.sane.half
  obtain ⟨g1, g2, g3⟩ := modify_cost (fl := fl) h1 h2 h5 c hs
  refine ⟨g1, g2, fun t' hm => ?_⟩
  have := g3 t' hm
  omega

/-- Copying the witness: six nodes, seven looks at the condition, and two steps up. -/
example : ChangeSet.new.steps Flavor.default wildTree = (7, 2) ∧
    (ChangeSet.new.steps Flavor.default wildTree).1 ≤ 1 * 6 + 1 :=
  ⟨by decide +kernel, (C87_modify_rounds (S := []) wild_obtained ChangeSet.new
    (by simp [ChangeSet.new])).1⟩

/-- C87: the counts are those of the loops of the model: the outer one ends with that many rounds
and not with fewer; the inner one has taken that many entries off the stack when it ends, and there
was no next sibling for any of them but the last; a call of `step` has taken that many entries off
the stack when it returns, and has put one on it if the node has a child. -/
theorem C87_counts (S : List Nat) (nodes : List (Links α)) :
    (∀ fuel st, ModState.loop fl S nodes fuel st ≠ .error .diverge →
      Rounds (fun m => ModState.loop fl S nodes m st) (· = .error .diverge)
        (ModState.steps fl S nodes fuel st).1) ∧
    (∀ prev ps, (RefactorWalk.ascend nodes prev ps).1.parents =
        ps.drop (RefactorWalk.ascendSteps nodes ps) ∧
      RefactorWalk.ascendSteps nodes ps ≤ ps.length) ∧
    (∀ (r : RefactorWalk) node id, (r.step nodes node id).1.parents.length +
        RefactorWalk.stepSteps nodes r.parents node =
      r.parents.length + (if (nodeFirst nodes node).isSome then 1 else 0)) := by
  refine ⟨fun fuel st h => modify_rounds S nodes fuel st h, fun prev ps => ascend_steps nodes prev ps,
    fun r node id => ?_⟩
  unfold RefactorWalk.step RefactorWalk.stepSteps
  cases nodeFirst nodes node with
  | some _ => simp
  | none =>
    cases nodeNext nodes node with
    | some _ => simp
    | none =>
      obtain ⟨h1, h2⟩ := ascend_steps nodes r.prev r.parents
      simp only [h1, List.length_drop]
      simp; omega

/-- Up from below `3` and `0` of the demo tree: `3` has a next sibling. -/
example : (RefactorWalk.ascend demoTree.nodes none [(3, 1), (0, 0)]).1.parents = [(0, 0)] ∧
    RefactorWalk.ascendSteps demoTree.nodes [(3, 1), (0, 0)] = 1 ∧
    (RefactorWalk.ascend demoTree.nodes none [(3, 1), (0, 0)]).1.parents =
      [(3, 1), (0, 0)].drop (RefactorWalk.ascendSteps demoTree.nodes [(3, 1), (0, 0)]) :=
  ⟨rfl, rfl, ((C87_counts (fl := Flavor.default) [] demoTree.nodes).2.1 none [(3, 1), (0, 0)]).1⟩

/-- From `2`, the last child of `3`, on to the next sibling of `3`. -/
example : ((⟨[(3, 1), (0, 0)], none⟩ : RefactorWalk).step demoTree.nodes 2 3).1.parents.length + 1 =
    2 + 0 :=
  (C87_counts (fl := Flavor.default) [] demoTree.nodes).2.2 ⟨[(3, 1), (0, 0)], none⟩ 2 3

example : Rounds (fun m => ModState.loop Flavor.default [] demoTree.nodes m
      ⟨Tree.empty, ⟨[], none⟩, 0, some (0, false)⟩) (· = .error .diverge) 7 :=
  (C87_counts (fl := Flavor.default) [] demoTree.nodes).1 9
    ⟨Tree.empty, ⟨[], none⟩, 0, some (0, false)⟩ (fun h => by cases h)

end Syntree
