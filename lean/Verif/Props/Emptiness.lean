import Verif.Proof.Emptiness
import Verif.Props.Reading

/-!
# C92: emptiness, and links that go back, on every tree

`Obtained t` (`Spec/Obtained.lean`): some program gets hold of `t`, whatever checkpoints it has used.
-/

namespace Syntree

variable {α : Type} {t : Tree α}

theorem yields_nil {σ β : Type} {next : NextFn σ β} {s : σ} :
    Yields next s [] ↔ (next s).2 = .none :=
  ⟨fun h => by cases h with | done e => rw [e], fun h => .done (s' := (next s).1) (by rw [← h])⟩

theorem children_nil_iff {nodes : Slice α} {c : Children}
    (hf : ∀ f, c.first = some f → f < nodes.length) (hl : ∀ e, c.last = some e → e < nodes.length)
    (hb : c.first.isSome = c.last.isSome) :
    (Yields (Children.next nodes) c [] ↔ c.first = none) ∧
    (Yields (Children.nextBack nodes) c [] ↔ c.first = none) := by
  obtain ⟨first, last⟩ := c
  cases first with
  | none =>
    cases last with
    | none => simp [yields_nil, Children.next, Children.nextBack]
    | some e => simp at hb
  | some f =>
    cases last with
    | none => simp at hb
    | some e =>
      obtain ⟨lf, hlf⟩ := get_of_lt (hf f rfl)
      obtain ⟨le, hle⟩ := get_of_lt (hl e rfl)
      simp only [yields_nil, Children.next, Children.nextBack, hlf, hle]
      constructor
      · split <;> simp
      · split <;> simp

theorem at_none {nodes : Slice α} {o : Option Nat} (h : ∀ f, o = some f → f < nodes.length) :
    o.bind (nodeAt nodes) = none ↔ o = none := by
  cases o with
  | none => simp
  | some f =>
    obtain ⟨l, hl⟩ := get_of_lt (h f rfl)
    simp [nodeAt, hl]

/-- C92: on every tree a program can get hold of, `is_empty()` is true if and only if `len()` is 0,
if and only if `first()` is `None`, `last()` is `None`, `children()` returns nothing (from the front
or from the back), `walk()` returns nothing, `walk_events()` returns nothing, or no id can be looked
up. -/
theorem C92_empty_tree (h : Obtained t) :
    (t.isEmpty = true ↔ t.len = 0) ∧
    (t.isEmpty = true ↔ t.firstNode = none) ∧
    (t.isEmpty = true ↔ t.lastNode = none) ∧
    (t.isEmpty = true ↔ Yields (Children.next t.nodes) t.children []) ∧
    (t.isEmpty = true ↔ Yields (Children.nextBack t.nodes) t.children []) ∧
    (t.isEmpty = true ↔ Yields (Walk.next t.nodes) t.walk []) ∧
    (t.isEmpty = true ↔ Yields (WalkEvents.next t.nodes) t.walk []) ∧
    (t.isEmpty = true ↔ ∀ i, t.get i = none) := by
  have hb := h.both
  obtain ⟨own, rank, ho, hr⟩ := h.sane
  have hf : ∀ f, t.first = some f → f < t.nodes.length := fun f e => hr.lt e
  have hnil : t.isEmpty = true ↔ t.first = none := by
    constructor
    · intro e
      have e' : t.nodes = [] := List.isEmpty_iff.1 e
      cases hx : t.first with
      | none => rfl
      | some f => have := hf f hx; rw [e'] at this; simp at this
    · intro e
      cases hn : t.nodes with
      | nil => simp [Tree.isEmpty, hn]
      | cons a l =>
        have := hb.full (by rw [hn]; simp)
        rw [e] at this; simp at this
  have hlast : t.first = none ↔ t.last = none := by
    have := hb.root
    cases e1 : t.first <;> cases e2 : t.last <;> simp_all
  obtain ⟨c1, c2⟩ := children_nil_iff (nodes := t.nodes) (c := t.children) hf hb.last hb.root
  have hw : (Yields (WalkEvents.next t.nodes) t.walk [] ↔ t.first = none) ∧
      (Yields (Walk.next t.nodes) t.walk [] ↔ t.first = none) := by
    unfold Tree.walk WalkEvents.new
    cases hx : t.first with
    | none => simp [yields_nil, WalkEvents.next, Walk.next]; rfl
    | some f =>
      obtain ⟨l, hl⟩ := get_of_lt (hf f hx)
      simp only [yields_nil, Option.map_some, reduceCtorEq, iff_false]
      constructor
      · simp [WalkEvents.next, hl]
      · intro e
        simp [Walk.next, Walk.nextLoop, WalkEvents.next, hl] at e
  refine ⟨by simp [Tree.isEmpty, Tree.len], ?_, ?_, hnil.trans c1.symm, hnil.trans c2.symm,
    hnil.trans hw.2.symm, hnil.trans hw.1.symm, ?_⟩
  · exact hnil.trans (at_none hf).symm
  · exact (hnil.trans hlast).trans (at_none hb.last).symm
  · constructor
    · intro e i
      have e' : t.nodes = [] := List.isEmpty_iff.1 e
      simp [Tree.get, nodeAt, e']
    · intro e
      cases hn : t.nodes with
      | nil => simp [Tree.isEmpty, hn]
      | cons a l =>
        have := e 0
        simp [Tree.get, nodeAt, hn] at this

example : ∃ i, wildTree.firstNode = some i := by
  cases e : wildTree.firstNode with
  | none => exact absurd ((C92_empty_tree wild_obtained).2.1.2 e) (by decide)
  | some i => exact ⟨i, rfl⟩

/-- C92: for every node of such a tree, `is_empty()` is the opposite of `has_children()`, and it is
true if and only if `first()` is `None`, `last()` is `None`, or `children()` returns nothing (from
the front or from the back). -/
theorem C92_empty_node (h : Obtained t) {n : Nat} (hn : n < t.len) :
    nodeIsEmpty t.nodes n = ! hasChildren t.nodes n ∧
    (nodeIsEmpty t.nodes n = true ↔ nodeFirst t.nodes n = none) ∧
    (nodeIsEmpty t.nodes n = true ↔ nodeLast t.nodes n = none) ∧
    (nodeIsEmpty t.nodes n = true ↔ Yields (Children.next t.nodes) (nodeChildren t.nodes n) []) ∧
    (nodeIsEmpty t.nodes n = true ↔
      Yields (Children.nextBack t.nodes) (nodeChildren t.nodes n) []) := by
  have hb := h.both
  obtain ⟨own, rank, ho, hr⟩ := h.sane
  obtain ⟨l, hl⟩ := get_of_lt hn
  have hf : ∀ f, l.first = some f → f < t.nodes.length := fun f e => by
    obtain ⟨_, lf, h1, _⟩ := ho.first n l f hl e
    exact get_lt h1
  have hla : ∀ e, l.last = some e → e < t.nodes.length := fun e he =>
    (ho.anc_lt (ho.last n l e hl he)).1
  have hboth := hb.nodes n l hl
  have hnil : nodeIsEmpty t.nodes n = true ↔ l.first = none := by simp [nodeIsEmpty, hl]
  have hlast : l.first = none ↔ l.last = none := by
    cases e1 : l.first <;> cases e2 : l.last <;> simp_all
  obtain ⟨c1, c2⟩ := children_nil_iff (nodes := t.nodes) (c := ⟨l.first, l.last⟩) hf hla hboth
  refine ⟨?_, ?_, ?_, ?_, ?_⟩
  · simp only [nodeIsEmpty, hasChildren, hl]
    cases l.first <;> rfl
  · refine hnil.trans ?_
    rw [← at_none hf]
    simp only [nodeFirst, follow, hl]
    cases l.first <;> rfl
  · refine (hnil.trans hlast).trans ?_
    rw [← at_none hla]
    simp only [nodeLast, follow, hl]
    cases l.last <;> rfl
  · rw [nodeChildren, hl]; exact hnil.trans c1.symm
  · rw [nodeChildren, hl]; exact hnil.trans c2.symm

example : nodeLast wildTree.nodes 4 ≠ none := fun e =>
  absurd ((C92_empty_node wild_obtained (n := 4) (by decide)).2.2.1.2 e) (by decide)

theorem follow_iff {nodes : Slice α} {n j : Nat} {l : Links α} {link : Links α → Option Nat}
    (hl : nodes[n]? = some l) (e : follow nodes n link = some j) : link l = some j ∧
      j < nodes.length := by
  unfold follow at e
  rw [hl] at e
  dsimp only at e
  split at e
  · cases e
  · rename_i id hid
    unfold nodeAt at e
    split at e
    · cases e
    · rename_i x hx
      cases e
      exact ⟨hid, get_lt hx⟩

theorem follow_of {nodes : Slice α} {n j : Nat} {l : Links α} {link : Links α → Option Nat}
    (hl : nodes[n]? = some l) (e : link l = some j) (hj : j < nodes.length) :
    follow nodes n link = some j := by
  obtain ⟨lj, hlj⟩ := get_of_lt hj
  simp [follow, hl, e, nodeAt, hlj]

/-- C92: on every tree a program can get hold of, the way forward goes back: `next().prev()` and
`prev().next()` are the node itself, `first().parent()` is the node itself and `first().prev()` is
`None`; the first node of the tree has no `prev()` either. (Not so `next().parent()` and
`last().parent()`, see `C92_parents_differ`.) -/
theorem C92_links_go_back (h : Obtained t) {n j : Nat} :
    (nodeNext t.nodes n = some j → nodePrev t.nodes j = some n) ∧
    (nodePrev t.nodes n = some j → nodeNext t.nodes j = some n) ∧
    (nodeFirst t.nodes n = some j → nodeParent t.nodes j = some n ∧ nodePrev t.nodes j = none) ∧
    (t.firstNode = some j → nodePrev t.nodes j = none) := by
  obtain ⟨own, rank, ho, hr⟩ := h.sane
  have hget : ∀ {link : Links α → Option Nat}, follow t.nodes n link = some j →
      ∃ l, t.nodes[n]? = some l := by
    intro link e
    cases hl : t.nodes[n]? with
    | none => simp [follow, hl] at e
    | some l => exact ⟨l, rfl⟩
  refine ⟨fun e => ?_, fun e => ?_, fun e => ?_, fun e => ?_⟩
  · obtain ⟨l, hl⟩ := hget e
    obtain ⟨e1, hj⟩ := follow_iff hl e
    obtain ⟨_, _, lm, h1, h2⟩ := ho.next n l j hl e1
    exact follow_of h1 h2 (get_lt hl)
  · obtain ⟨l, hl⟩ := hget e
    obtain ⟨e1, hj⟩ := follow_iff hl e
    obtain ⟨lp, h1, h2⟩ := ho.prev n l j hl e1
    exact follow_of h1 h2 (get_lt hl)
  · obtain ⟨l, hl⟩ := hget e
    obtain ⟨e1, hj⟩ := follow_iff hl e
    obtain ⟨_, lf, h1, h2, h3⟩ := ho.first n l j hl e1
    exact ⟨follow_of h1 h2 (get_lt hl), by simp [nodePrev, follow, h1, h3]⟩
  · cases hx : t.first with
    | none => simp [Tree.firstNode, hx] at e
    | some f =>
      obtain ⟨_, l, h1, h2⟩ := hr f hx
      have : j = f := by
        simp [Tree.firstNode, hx, Tree.get, nodeAt, h1] at e
        exact e.symm
      subst this
      simp [nodePrev, follow, h1, h2]

example : nodePrev wildTree.nodes 5 = some 4 :=
  (C92_links_go_back wild_obtained (n := 4) (j := 5)).1 rfl

/-- C92: but a sibling need not name the same parent, nor the last child its parent, nor need the
last child be reached from the first one: on the tree of `wildOps` the next sibling of node 4 (a
child of node 3) is node 5, which has no parent, and the last child of node 3 is node 2, whose
parent is node 4. -/
theorem C92_parents_differ : Obtained wildTree ∧
    (nodeNext wildTree.nodes 4 = some 5 ∧ nodeParent wildTree.nodes 4 = some 3 ∧
      nodeParent wildTree.nodes 5 = none) ∧
    (nodeLast wildTree.nodes 3 = some 2 ∧ nodeParent wildTree.nodes 2 = some 4) :=
  ⟨wild_obtained, ⟨rfl, rfl, rfl⟩, rfl, rfl⟩

end Syntree
