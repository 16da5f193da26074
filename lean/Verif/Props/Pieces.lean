import Verif.Props.Traverse
import Verif.Props.Order

/-!
# C88: walks are put together from subtrees

The loop of `tests/walk_trees.rs` (`n.children().flat_map(|n| n.walk().inside())`) and its relatives.
-/

namespace Syntree

open Forest

variable {α : Type} {fl : Flavor} {t : Tree α} {F : Forest (Lab α)}

/-- The subtrees of the elements `G` of some level, one after the other. -/
theorem pieces_level {sub : Nat → List Nat} (G : Forest (Lab α))
    (h : ∀ {left : Forest (Lab α)} {x : Lab α} {kids right : Forest (Lab α)},
      G = left ++ .cons x kids right → sub x.id = x.id :: kids.ids) :
    G.ids = G.topIds.flatMap sub := by
  induction G with
  | nil => rfl
  | cons x k r _ ih =>
    have h1 := h (left := .nil) (x := x) (kids := k) (right := r) rfl
    have h2 := ih (fun {left y kids right} e => h (left := .cons x k left) (by rw [e]; rfl))
    simp only [ids, topIds, preorder, tops, List.map_cons, List.map_append, List.flatMap_cons] at *
    rw [h1, h2]; rfl

/-- What follows the subtree of a place. -/
theorem Forest.Loc.rest {sub later : Nat → List Nat} {anc : List (Lab α)}
    {left kids right : Forest (Lab α)} {x : Lab α} (hl : Loc F anc left x kids right)
    (hs : ∀ {anc : List (Lab α)} {left kids right : Forest (Lab α)} {x : Lab α},
      Loc F anc left x kids right → sub x.id = x.id :: kids.ids)
    (hr : ∀ {anc : List (Lab α)} {left kids right : Forest (Lab α)} {x : Lab α},
      Loc F anc left x kids right → later x.id = right.topIds) :
    ∃ pre, F.ids = pre ++ (x.id :: kids.ids) ++
      (x.id :: anc.map (·.id)).flatMap fun a => (later a).flatMap sub := by
  induction hl with
  | @root left x kids right e =>
    refine ⟨left.ids, ?_⟩
    have h1 : right.ids = right.topIds.flatMap sub := pieces_level right
      (fun {l y k r} e' => hs (.root (F := F) (left := left ++ .cons x kids l) (by
        rw [e, e', Forest.append_assoc]; rfl)))
    subst e
    simp only [List.flatMap_cons, List.flatMap_nil, List.append_nil, List.map_nil,
      hr (.root (F := left ++ .cons x kids right) rfl), ← h1]
    simp [ids, preorder]
  | @child anc l p k r left x kids right hp e ih =>
    obtain ⟨pre, h2⟩ := ih
    refine ⟨pre ++ p.id :: left.ids, ?_⟩
    have h1 : right.ids = right.topIds.flatMap sub := pieces_level right
      (fun {l' y k' r'} e' => hs (.child (left := left ++ .cons x kids l') hp (by
        rw [e, e', Forest.append_assoc]; rfl)))
    rw [h2]
    rw [List.map_cons, List.flatMap_cons (x := x.id), hr (.child hp e), ← h1, e]
    simp [ids, preorder]

theorem Forest.Loc.inner {β : Type} {F : Forest β} {anc : List β} {left kids right : Forest β}
    {x y : β} (hl : Loc F anc left x kids right) (hy : y ∈ kids.preorder) :
    ∃ anc' left' kids' right', Loc F anc' left' y kids' right' ∧ x ∈ anc' := by
  have key : ∀ {anc2 : List β} {l k r : Forest β} {y : β}, Loc kids anc2 l y k r →
      Loc F (anc2 ++ x :: anc) l y k r := by
    intro anc2 l k r y h
    induction h with
    | root e => exact .child hl e
    | child _ e ih => exact .child ih e
  obtain ⟨anc2, l, k, r, h⟩ := Loc.exists_of_mem hy
  exact ⟨_, _, _, _, key h, by simp⟩

/-- C88. `sub i` is what `i.walk().inside()` yields, and `later i` what `i.siblings()` yields after
`i`. Then: a walk over the tree yields the subtrees of the roots, one after the other; a subtree is
its top followed by the subtrees of its children; `walk()` from a node yields its subtree and then
what `walk_from()` yields; `walk_from()` yields the subtrees of the later siblings of the node, then
those of the later siblings of its parent, and so on up to the roots; and a node is in the subtree of
another one exactly if that is one of its ancestors (or itself). -/
theorem C88_pieces (h : Made fl t F) :
    ∃ sub later : Nat → List Nat,
      (∀ i, i < t.len → Yields (Inside.next t.nodes) (nodeWalk i) (sub i)) ∧
      (∀ i, i < t.len → Yields (Siblings.next t.nodes) (nodeSiblings i) (i :: later i)) ∧
      (∃ roots, Yields (Children.next t.nodes) t.children roots ∧
        Yields (Walk.next t.nodes) t.walk (roots.flatMap sub)) ∧
      (∀ i, i < t.len → ∃ cs, Yields (Children.next t.nodes) (nodeChildren t.nodes i) cs ∧
        sub i = i :: cs.flatMap sub) ∧
      ∀ i, i < t.len → ∃ path rest, Yields (Ancestors.next t.nodes) (nodeAncestors i) path ∧
        Yields (Walk.next t.nodes) (nodeWalkFrom i) rest ∧
        Yields (Walk.next t.nodes) (nodeWalk i) (sub i ++ rest) ∧
        rest = path.flatMap (fun a => (later a).flatMap sub) ∧
        ∀ j, j < t.len → (i ∈ sub j ↔ j ∈ path) := by
  have hr := h.represents
  have place := (C17_links_match_place h).1
  have hex : ∀ i, ∃ s l : List Nat, i < t.len → Yields (Inside.next t.nodes) (nodeWalk i) s ∧
      Yields (Siblings.next t.nodes) (nodeSiblings i) (i :: l) := by
    intro i
    by_cases hi : i < t.len
    · obtain ⟨anc, left, x, kids, right, rfl, hl⟩ := place i hi
      exact ⟨_, _, fun _ => ⟨(C11_inside_is_subtree h hl).1, C15_siblings h hl⟩⟩
    · exact ⟨[], [], fun hi' => absurd hi' hi⟩
  obtain ⟨sub, hex⟩ := Classical.axiomOfChoice hex
  obtain ⟨later, hex⟩ := Classical.axiomOfChoice hex
  have lt : ∀ {anc : List (Lab α)} {left kids right : Forest (Lab α)} {x : Lab α},
      Loc F anc left x kids right → x.id < t.len := by
    intro anc left kids right x hl
    have := (hr.node_get hl).1
    unfold Tree.get nodeAt at this
    by_cases hlt : x.id < t.nodes.length
    · exact hlt
    · simp [hlt] at this
  have hs : ∀ {anc : List (Lab α)} {left kids right : Forest (Lab α)} {x : Lab α},
      Loc F anc left x kids right → sub x.id = x.id :: kids.ids := fun hl =>
    (hex _ (lt hl)).1.det (C11_inside_is_subtree h hl).1
  have hlat : ∀ {anc : List (Lab α)} {left kids right : Forest (Lab α)} {x : Lab α},
      Loc F anc left x kids right → later x.id = right.topIds := by
    intro anc left kids right x hl
    have := (hex _ (lt hl)).2.det (C15_siblings h hl)
    exact (List.cons.inj this).2
  refine ⟨sub, later, fun i hi => (hex i hi).1, fun i hi => (hex i hi).2, ?_, ?_, ?_⟩
  · refine ⟨_, (C12_children_in_order h).1, ?_⟩
    have : F.ids = F.topIds.flatMap sub := pieces_level F (fun e => hs (.root e))
    have hw := hr.walk
    rw [this] at hw
    exact hw
  · intro i hi
    obtain ⟨anc, left, x, kids, right, rfl, hl⟩ := place i hi
    refine ⟨_, (C12_children_in_order h).2 hl, ?_⟩
    rw [hs hl, pieces_level kids (fun e => hs (.child hl e))]
    rfl
  · intro i hi
    obtain ⟨anc, left, x, kids, right, rfl, hl⟩ := place i hi
    obtain ⟨pre, e⟩ := hl.rest hs hlat
    have hw : Yields (Walk.next t.nodes) t.walk F.ids := hr.walk
    rw [e] at hw
    have h10 := C10_walk_from_skips_subtree h hl (pre := pre) hw
    refine ⟨_, _, C16_ancestors h hl, h10, ?_, rfl, ?_⟩
    · rw [hs hl]
      exact C09_node_walk_is_suffix h (pre := pre) (by simpa using hw)
    · intro j hj
      obtain ⟨anc', left', y, kids', right', rfl, hl'⟩ := place j hj
      rw [hs hl']
      constructor
      · intro hm
        rcases List.mem_cons.1 hm with hm | hm
        · rw [hm]; simp
        · obtain ⟨z, hz, ez⟩ := List.mem_map.1 hm
          obtain ⟨a1, a2, a3, a4, a5, a6⟩ := hl'.inner hz
          have e' := C16_ancestors h a5
          rw [ez] at e'
          rw [(C16_ancestors h hl).det e']
          exact List.mem_cons_of_mem _ (List.mem_map_of_mem a6)
      · intro hm
        rcases List.mem_cons.1 hm with hm | hm
        · rw [hm]; simp
        · obtain ⟨z, hz, ez⟩ := List.mem_map.1 hm
          obtain ⟨a1, a2, a3, a4, a5, a6⟩ := hl.below_anc hz
          have h1 := hs a5
          rw [ez, hs hl'] at h1
          rw [h1]
          exact List.mem_cons_of_mem _ (List.mem_map_of_mem a6)

/-- The demo tree `0 ⇒ {3 ⇒ {1, 2}, 4}, 5`: what comes after node 1 is the subtree of its later
sibling 2, of the later sibling 4 of its parent, and of the later sibling 5 of its root. -/
example : ∃ sub : Nat → List Nat,
    (∀ i, i < 6 → Yields (Inside.next demoTree.nodes) (nodeWalk i) (sub i)) ∧
    sub 0 = 0 :: (sub 3 ++ sub 4) ∧
    Yields (Walk.next demoTree.nodes) (nodeWalkFrom 1) (sub 2 ++ (sub 4 ++ sub 5)) := by
  obtain ⟨sub, later, h1, h2, _, h3, h4⟩ := C88_pieces demo_made
  refine ⟨sub, h1, ?_, ?_⟩
  · obtain ⟨cs, c1, c2⟩ := h3 0 (by decide +kernel)
    rw [c1.det (.item rfl (.item rfl (.done rfl)) : Yields (Children.next demoTree.nodes) (nodeChildren demoTree.nodes 0) [3, 4])] at c2
    simpa using c2
  · obtain ⟨path, rest, p1, p2, _, p3, _⟩ := h4 1 (by decide +kernel)
    rw [p1.det (.item rfl (.item rfl (.item rfl (.done rfl))) : Yields (Ancestors.next demoTree.nodes) (nodeAncestors 1) [1, 3, 0])] at p3
    have l1 := (h2 1 (by decide +kernel)).det
      (.item rfl (.item rfl (.done rfl)) : Yields (Siblings.next demoTree.nodes) (nodeSiblings 1) [1, 2])
    have l3 := (h2 3 (by decide +kernel)).det
      (.item rfl (.item rfl (.done rfl)) : Yields (Siblings.next demoTree.nodes) (nodeSiblings 3) [3, 4])
    have l0 := (h2 0 (by decide +kernel)).det
      (.item rfl (.item rfl (.done rfl)) : Yields (Siblings.next demoTree.nodes) (nodeSiblings 0) [0, 5])
    simp only [List.cons.injEq, true_and] at l1 l3 l0
    simp [l1, l3, l0] at p3
    rw [p3] at p2
    exact p2

end Syntree
