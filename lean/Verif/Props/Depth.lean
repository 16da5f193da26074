import Verif.Proof.Depth
import Verif.Props.Reading

/-!
# C75: depths never overflow

`WalkEvents` counts its depth in an `isize` with checked arithmetic, and a failed addition silently
ends the walk; `print` computes `(depth * 2) as usize`. `Obtained t` (`Spec/Obtained.lean`): some
program gets hold of `t`, having used any checkpoint with any builder. `m` is `-isize::MIN`; a `Vec`
holds at most `isize::MAX` bytes, so its length is below `m`.
-/

namespace Syntree

variable {α : Type} {t : Tree α}

/-- The walks a program can start on a tree. -/
inductive Started (t : Tree α) : WalkEvents → Prop
  | tree : Started t t.walk
  | node {n : Nat} : n < t.len → Started t (nodeWalk n)
  | from {n : Nat} : n < t.len → Started t (nodeWalkFrom n)

theorem Started.ranged {m : Nat} (h : Obtained t) (hm : t.len < m) {w : WalkEvents}
    (hw : Started t w) : Ranged m t.nodes w := by
  obtain ⟨own, rank, ho, hf⟩ := h.sane
  cases hw with
  | tree =>
    unfold Tree.walk WalkEvents.new
    cases hx : t.first with
    | none => exact .inl rfl
    | some f => exact ho.ranged (hf.lt hx) hm .next
  | node hn => exact ho.ranged hn hm .next
  | «from» hn => exact ho.ranged hn hm .up

/-- C75: on every tree a program can get hold of, no checked addition of a walk fails: `walk`,
`walk_events`, `with_depths` and `inside` return what they would if depths were unbounded. -/
theorem C75_no_overflow {m : Nat} (h : Obtained t) (hm : t.len < m) {w : WalkEvents}
    (hw : Started t w) :
    (∀ l, Yields (WalkEvents.nextIn m t.nodes) w l ↔ Yields (WalkEvents.next t.nodes) w l) ∧
    (∀ l, Yields (Walk.nextIn m t.nodes) w l ↔ Yields (Walk.next t.nodes) w l) ∧
    (∀ l, Yields (WithDepths.nextIn m t.nodes) w l ↔ Yields (WithDepths.next t.nodes) w l) ∧
    (∀ l, Yields (Inside.nextIn m t.nodes) w l ↔ Yields (Inside.next t.nodes) w l) := by
  have hr := hw.ranged h hm
  exact ⟨Yields.agree (fun _ hs => hs.step) hr, Yields.agree (fun _ hs => hs.walk _) hr,
    Yields.agree (fun _ hs => hs.withDepths _) hr, Yields.agree (fun _ hs => hs.inside _) hr⟩

/-- C75: in particular the walks of a machine end, having returned every event there is. -/
theorem C75_ends {m : Nat} (h : Obtained t) (hm : t.len < m) {w : WalkEvents} (hw : Started t w) :
    (∃ l, Yields (WalkEvents.nextIn m t.nodes) w l) ∧ (∃ l, Yields (Walk.nextIn m t.nodes) w l) ∧
    (∃ l, Yields (WithDepths.nextIn m t.nodes) w l) ∧
    (∃ l, Yields (Inside.nextIn m t.nodes) w l) := by
  obtain ⟨e1, e2, e3, e4⟩ := C75_no_overflow h hm hw
  have key : (∃ l, Yields (WalkEvents.next t.nodes) w l) ∧ (∃ l, Yields (Walk.next t.nodes) w l) ∧
      (∃ l, Yields (WithDepths.next t.nodes) w l) ∧ (∃ l, Yields (Inside.next t.nodes) w l) := by
    cases hw with
    | tree =>
      obtain ⟨⟨a, ha, _⟩, ⟨b, hb, _⟩, ⟨c, hc, _⟩, ⟨d, hd, _⟩⟩ := C49_tree_walks_end h
      exact ⟨⟨a, ha⟩, ⟨b, hb⟩, ⟨c, hc⟩, ⟨d, hd⟩⟩
    | node hn =>
      obtain ⟨⟨a, ha, _⟩, ⟨b, hb, _⟩, ⟨c, hc, _⟩, ⟨d, hd, _⟩⟩ := C49_node_walks_end h hn (.inl rfl)
      exact ⟨⟨a, ha⟩, ⟨b, hb⟩, ⟨c, hc⟩, ⟨d, hd⟩⟩
    | «from» hn =>
      obtain ⟨⟨a, ha, _⟩, ⟨b, hb, _⟩, ⟨c, hc, _⟩, ⟨d, hd, _⟩⟩ := C49_node_walks_end h hn (.inr rfl)
      exact ⟨⟨a, ha⟩, ⟨b, hb⟩, ⟨c, hc⟩, ⟨d, hd⟩⟩
  obtain ⟨⟨a, ha⟩, ⟨b, hb⟩, ⟨c, hc⟩, ⟨d, hd⟩⟩ := key
  exact ⟨⟨a, (e1 a).2 ha⟩, ⟨b, (e2 b).2 hb⟩, ⟨c, (e3 c).2 hc⟩, ⟨d, (e4 d).2 hd⟩⟩

/-- The depths with which the nodes of a walk are reported. -/
theorem withDepths_of_rest {w : WalkEvents} {l : List (Int × Event × Nat)} {v : List (Int × Nat)}
    (h : Rest t.nodes w l) (hu : ups l ≤ t.nodes.length)
    (hv : Yields (WithDepths.next t.nodes) w v) : ∀ p ∈ v, ∃ e, e ≠ .up ∧ (p.1, e, p.2) ∈ l := by
  have hv' : v = visited l := hv.det (h.withDepths _ _ (by omega))
  subst hv'
  intro p hp
  simp only [visited, List.mem_map, List.mem_filter] at hp
  obtain ⟨⟨d, e, n⟩, ⟨h1, h2⟩, rfl⟩ := hp
  exact ⟨e, by simpa using h2, h1⟩

/-- C75: `tree.walk().with_depths()` reports depths from 0 to `len - 1`, even on a tree on which the
links disagree. -/
theorem C75_tree_depths (h : Obtained t) {l : List (Int × Nat)}
    (hl : Yields (WithDepths.next t.nodes) t.walk l) : ∀ p ∈ l, 0 ≤ p.1 ∧ p.1 < t.len := by
  obtain ⟨own, rank, ho, hf⟩ := h.sane
  unfold Tree.walk WalkEvents.new at hl
  cases hx : t.first with
  | none =>
    rw [hx] at hl
    cases hl with
    | done _ => simp
    | item e _ => simp [WithDepths.next, WithDepths.nextLoop, WalkEvents.next] at e
  | some f =>
    rw [hx] at hl
    obtain ⟨dep, hd⟩ := ho.dep
    obtain ⟨v, h1, h2, h3, h4, h5⟩ := ho.rest (hf.lt hx) .next 0
    have hu : ups v ≤ t.nodes.length := by
      rw [← outs_length]; exact length_le_of_lt _ _ h3 h5
    have hi := length_le_of_lt _ _ h2 h4
    intro p hp
    obtain ⟨e, he, hm⟩ := withDepths_of_rest h1 hu hl p hp
    have b1 := h1.depth_lt _ hm he
    have b2 := h1.dep_le ho hd (by
      intro n e' hn
      simp only [Option.some.injEq, Prod.mk.injEq] at hn
      rw [← hn.1, hd.root f (hf f hx).1]; simp) _ hm
    simp only at b1 b2
    simp only [Tree.len]
    omega

/-- C75: and those of `node.walk()` and `node.walk_from()` lie between `-len` and `len`. -/
theorem C75_node_depths (h : Obtained t) {n : Nat} (hn : n < t.len) {w : WalkEvents}
    (hw : w = nodeWalk n ∨ w = nodeWalkFrom n) {l : List (Int × Nat)}
    (hl : Yields (WithDepths.next t.nodes) w l) : ∀ p ∈ l, -(t.len : Int) ≤ p.1 ∧ p.1 < t.len := by
  obtain ⟨own, rank, ho, hf⟩ := h.sane
  have key : ∀ e0, w = ⟨some (n, e0), 0⟩ → ∀ p ∈ l, -(t.len : Int) ≤ p.1 ∧ p.1 < t.len := by
    intro e0 e
    subst e
    obtain ⟨v, h1, h2, h3, h4, h5⟩ := ho.rest hn e0 0
    have hu : ups v ≤ t.nodes.length := by
      rw [← outs_length]; exact length_le_of_lt _ _ h3 h5
    have hi := length_le_of_lt _ _ h2 h4
    have ho' := length_le_of_lt _ _ h3 h5
    intro p hp
    obtain ⟨e, he, hm⟩ := withDepths_of_rest h1 hu hl p hp
    have b1 := h1.depth_lt _ hm he
    have b2 := h1.depth_gt _ hm
    simp only at b1 b2
    simp only [Tree.len]
    refine ⟨?_, by omega⟩
    revert b2
    cases e0 <;> simp only <;> intro b2 <;> omega
  rcases hw with rfl | rfl
  · exact key .next rfl
  · exact key .up rfl

/-- C75: the first node of every tree a program can get hold of has no parent and no node before
it. -/
theorem C75_first_is_a_root (h : Obtained t) {f : Nat} (hf : t.firstNode = some f) :
    nodeParent t.nodes f = none ∧ nodePrev t.nodes f = none := by
  obtain ⟨own, rank, ho, hr⟩ := h.sane
  have hx : t.first = some f := by
    unfold Tree.firstNode at hf
    cases hx : t.first with
    | none => simp [hx] at hf
    | some g =>
      rw [hx] at hf
      simp only [Option.bind_some, Tree.get, nodeAt] at hf
      split at hf
      · simp at hf
      · exact hf
  obtain ⟨h1, l, h2, h3⟩ := hr f hx
  have hp : l.parent = none := by
    cases hp : l.parent with
    | none => rfl
    | some q =>
      obtain ⟨o, e, _⟩ := (ho.par f l q h2 hp).owner
      rw [h1] at e; simp at e
  simp [nodeParent, nodePrev, follow, h2, h3, hp]

/-- C75: `print` neither overflows in `depth * 2` nor in the cast to `usize`: the product is an
`isize` that is not negative (if there are not more than `isize::MAX / 2` nodes), and what is printed
is what would be with unbounded integers (always, without overflow checks: if the product wraps, the
cast undoes it). -/
theorem C75_print {m : Nat} (h : Obtained t) (hm : t.len < m) (showIndex : Nat → String)
    (debugData : α → String) (debugStr : String → String) (source : Span → Option String) :
    (2 * t.len ≤ m → ∀ l, Yields (WithDepths.nextIn m t.nodes) t.walk l →
      ∀ p ∈ l, 0 ≤ p.1 * 2 ∧ InIsize m (p.1 * 2)) ∧
    t.printWithLookupIn m showIndex debugData debugStr source =
      t.printWithLookup showIndex debugData debugStr source := by
  have hiff := (C75_no_overflow h hm .tree).2.2.1
  refine ⟨?_, ?_⟩
  · intro hm2 l hl p hp
    have := C75_tree_depths h ((hiff l).1 hl) p hp
    exact ⟨by omega, by omega, by omega⟩
  · obtain ⟨l, hl, _⟩ := (C49_tree_walks_end h).2.2.1
    refine forLoop_agree (fun _ hs => hs.withDepths _) _ (Started.tree.ranged h hm) hl ?_
    intro p hp
    have hd := C75_tree_depths h hl p hp
    have hi : indentIn m p.1 = (p.1 * 2).toNat := by
      unfold indentIn
      rw [Int.emod_eq_of_lt (by omega) (by omega)]
    simp only [printLineIn, printLine, hi]
    cases t.nodes[p.2]? with
    | none => rfl
    | some lk => simp only; cases source lk.span <;> rfl

example : (∀ l, Yields (WithDepths.nextIn 7 wildTree.nodes) wildTree.walk l ↔
    Yields (WithDepths.next wildTree.nodes) wildTree.walk l) :=
  (C75_no_overflow wild_obtained (by decide) .tree).2.2.1

example : ∃ l, Yields (Inside.nextIn 7 wildTree.nodes) (nodeWalkFrom 2) l :=
  (C75_ends wild_obtained (by decide) (.from (by decide))).2.2.2

example : ∀ p ∈ [((0 : Int), 3), (1, 0), (1, 4), (2, 1), (2, 2), (1, 5)], 0 ≤ p.1 ∧ p.1 < 6 :=
  C75_tree_depths wild_obtained (l := [(0, 3), (1, 0), (1, 4), (2, 1), (2, 2), (1, 5)])
    (.item rfl (.item rfl (.item rfl (.item rfl (.item rfl (.item rfl (.done rfl)))))))

/-- Depths do become negative when a walk that starts at a node leaves it. -/
example : ∀ p ∈ [((0 : Int), 2), (-1, 5)], -6 ≤ p.1 ∧ p.1 < 6 :=
  C75_node_depths wild_obtained (n := 2) (by decide) (.inl rfl) (l := [(0, 2), (-1, 5)])
    (.item rfl (.item rfl (.done rfl)))

example : nodeParent wildTree.nodes 3 = none ∧ nodePrev wildTree.nodes 3 = none :=
  C75_first_is_a_root wild_obtained rfl

example : wildTree.printWithLookupIn 12 toString toString id (fun _ => none) =
    wildTree.printWithLookup toString toString id (fun _ => none) :=
  (C75_print wild_obtained (by decide) _ _ _ _).2

/-- The arithmetic does matter: with integers from `-1` to `0` the walk of this tree ends after one
node. -/
example : Yields (Walk.nextIn 1 wildTree.nodes) wildTree.walk [3] ∧
    Yields (Walk.next wildTree.nodes) wildTree.walk [3, 0, 4, 1, 2, 5] :=
  ⟨.item rfl (.done rfl),
    .item rfl (.item rfl (.item rfl (.item rfl (.item rfl (.item rfl (.done rfl))))))⟩

end Syntree
