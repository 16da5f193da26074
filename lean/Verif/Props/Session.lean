import Verif.Proof.Session
import Verif.Proof.Inside
import Verif.Props.Traverse

/-!
# Properties C60 – C62: programs that hold an iterator

`Cmd` and `Plays` are in `Spec/Session.lean`: a program calls the methods of an iterator in any
order, and replaces values in the tree in between.
-/

namespace Syntree

variable {α : Type} {fl : Flavor} {t : Tree α} {F : Forest (Lab α)}

open Forest

theorem fused_next {σ : Type} {next : NextFn σ Nat} (h : Fused next) (s s' : σ)
    (e : next s = (s', .none)) : ∃ s'', next s' = (s'', .none) := by
  have := (h s s' e).1
  cases this with
  | done e => exact ⟨_, e⟩

theorem plays_forward {σ : Type} {next : Slice α → NextFn σ Nat}
    (hb : ∀ nodes i v, next (nodeReplace nodes i v).1 = next nodes) (hf : ∀ nodes, Fused (next nodes))
    {cs : List (Cmd α)} (hc : ∀ c ∈ cs, c.forward = true) {nodes : Slice α} {s : σ} {l : List Nat}
    (hy : Yields (next nodes) s l) (hl : l.length ≤ nodes.length) :
    Plays next next cs nodes s l :=
  plays (R := fun l s => Yields (next nodes) s l) (fun nodes i v => ⟨hb nodes i v, hb nodes i v⟩)
    (front_of_yields (fused_next (hf nodes))) (.inl hc) hy hl

/-! ## C60, C61 -/

/-- C60, C61: on every tree, a program that calls `next()`, `next_node()`, `find(p)` and
`skip_tokens().find(p)` in any order on `tree.walk()`, `node.walk()`, `children()`, `siblings()` or
`ancestors()`, and replaces values in between, gets the elements of the one list that the iterator
stands for, each one once and with the value written last. -/
theorem C60_forward (h : Made fl t F) (cs : List (Cmd α)) (hc : ∀ c ∈ cs, c.forward = true) :
    Plays Walk.next Walk.next cs t.nodes t.walk (F.preorder.map (·.id)) ∧
    Plays Children.next Children.next cs t.nodes t.children (F.tops.map (·.id)) ∧
    ∀ {anc : List (Lab α)} {left kids right : Forest (Lab α)} {x : Lab α},
      Loc F anc left x kids right →
      (∀ l, Yields (Walk.next t.nodes) (nodeWalk x.id) l →
        Plays Walk.next Walk.next cs t.nodes (nodeWalk x.id) l) ∧
      Plays Inside.next Inside.next cs t.nodes (nodeWalk x.id) (x.id :: kids.preorder.map (·.id)) ∧
      Plays Children.next Children.next cs t.nodes (nodeChildren t.nodes x.id)
        (kids.tops.map (·.id)) ∧
      Plays Siblings.next Siblings.next cs t.nodes (nodeSiblings x.id)
        (x.id :: right.tops.map (·.id)) ∧
      Plays Ancestors.next Ancestors.next cs t.nodes (nodeAncestors x.id)
        (x.id :: anc.map (·.id)) := by
  have hr := h.represents
  have hsz := hr.size
  have fu := fun nodes : Slice α => C19_fused nodes
  have bW : ∀ (nodes : Slice α) i v, Walk.next (nodeReplace nodes i v).1 = Walk.next nodes :=
    replace_same (f := fun _ n => Walk.next n) walk_next_bare
  have bI : ∀ (nodes : Slice α) i v, Inside.next (nodeReplace nodes i v).1 = Inside.next nodes :=
    replace_same (f := fun _ n => Inside.next n) inside_next_bare
  have bC : ∀ (nodes : Slice α) i v, Children.next (nodeReplace nodes i v).1 = Children.next nodes :=
    replace_same (f := fun _ n => Children.next n) children_next_bare
  have bS : ∀ (nodes : Slice α) i v, Siblings.next (nodeReplace nodes i v).1 = Siblings.next nodes :=
    replace_same (f := fun _ n => Siblings.next n) siblings_next_bare
  have bA : ∀ (nodes : Slice α) i v,
      Ancestors.next (nodeReplace nodes i v).1 = Ancestors.next nodes :=
    replace_same (f := fun _ n => Ancestors.next n) ancestors_next_bare
  refine ⟨?_, ?_, ?_⟩
  · exact plays_forward bW (fun n => (fu n).2.1) hc hr.walk
      (length_le_of_nodup hr (List.Sublist.refl _))
  · exact plays_forward bC (fun n => (fu n).2.2.2.2.2.2.1) hc hr.children
      (length_le_of_nodup hr (topIds_sublist F))
  · intro anc left kids right x hloc
    have hd := hloc.depth_lt
    simp only [Forest.size] at hd
    refine ⟨?_, ?_, ?_, ?_, ?_⟩
    · intro l hl
      refine plays_forward bW (fun n => (fu n).2.1) hc hl ?_
      have hx : x.id ∈ F.ids := List.mem_map_of_mem hloc.mem
      obtain ⟨pre, post, e⟩ := List.append_of_mem hx
      have hw := hr.walk
      rw [e] at hw
      have := (C09_node_walk_is_suffix h hw).det hl
      subst this
      exact length_le_of_nodup hr (by rw [e]; exact List.sublist_append_right _ _)
    · refine plays_forward bI (fun n => (fu n).2.2.2.1) hc (hr.inside hloc).1 ?_
      have h3 := preorder_length kids
      simp only [List.length_cons, List.length_map]
      omega
    · refine plays_forward bC (fun n => (fu n).2.2.2.2.2.2.1) hc (hr.node_children hloc) ?_
      have h2 := (topIds_sublist kids).length_le
      have h3 := preorder_length kids
      simp only [ids, topIds, List.length_map] at h2 ⊢
      omega
    · refine plays_forward bS (fun n => (fu n).2.2.2.2.1) hc (hr.siblings hloc) ?_
      have h2 := (topIds_sublist right).length_le
      have h3 := preorder_length right
      simp only [ids, topIds, List.length_map, List.length_cons] at h2 ⊢
      omega
    · refine plays_forward bA (fun n => (fu n).2.2.2.2.2.1) hc (hr.ancestors hloc) ?_
      simp only [List.length_cons, List.length_map]
      omega

/-- Read 0, overwrite 3 before it is reached, skip to the node after 0 that has children (3, with its
new value), look for a node above 3, ask once more. -/
example : (session Walk.next Walk.next
    [.ask .next, .replace 3 9, .ask .nextNode, .ask (.find fun i => decide (3 < i)), .ask (.findNode fun _ => true)]
    demoTree.nodes demoTree.walk).1 =
    [.some (0, some 1), .some (3, some 9), .some (4, some 5), .none] := by
  rw [(C60_forward demo_made _ (by decide)).1.1]
  decide

theorem children_plays {k : Forest (Lab α)} {par : Option Nat} {nodes : Slice α}
    (hs : Seg false nodes k par none none) (hnd : k.ids.Nodup) (hl : k.size ≤ nodes.length)
    (cs : List (Cmd α)) :
    Plays Children.next Children.nextBack cs nodes ⟨k.headId, k.lastId⟩ (k.tops.map (·.id)) := by
  refine plays (R := KidsAt nodes) (fun nodes i v =>
      ⟨replace_same (f := fun _ n => Children.next n) children_next_bare nodes i v,
        replace_same (f := fun _ n => Children.nextBack n) children_back_bare nodes i v⟩)
    (kids_front nodes) (.inr (kids_back nodes)) (kids_start hs hnd) ?_
  have h2 := (topIds_sublist k).length_le
  have h3 := preorder_length k
  simp only [ids, topIds, List.length_map] at h2 ⊢
  omega

/-- C60, C61 from both ends: wherever `last()` returns the last child (see `C14_last_iff`), a program
may also call `next_back()`, `rfind(p)` and the same with `skip_tokens()` on `children()`, mixed with
the others, and every child is handed out once, from the end that was asked for. -/
theorem C60_both_ends (h : Made fl t F) (cs : List (Cmd α)) :
    (t.lastNode = (F.tops.map (·.id)).getLast? →
      Plays Children.next Children.nextBack cs t.nodes t.children (F.tops.map (·.id))) ∧
    ∀ {anc : List (Lab α)} {left kids right : Forest (Lab α)} {x : Lab α},
      Loc F anc left x kids right →
      nodeLast t.nodes x.id = (kids.tops.map (·.id)).getLast? →
      Plays Children.next Children.nextBack cs t.nodes (nodeChildren t.nodes x.id)
        (kids.tops.map (·.id)) := by
  have hr := h.represents
  have hsz := hr.size
  constructor
  · intro hlast
    have e : t.children = ⟨F.headId, F.lastId⟩ := by
      have h1 := hr.tree_last
      have h2 := hr.last
      unfold Tree.children
      rw [hr.first, h2.2.2.2, ← h1.2.2.2, hlast]
      rfl
    rw [e]
    exact children_plays hr.root hr.nodup (by omega) cs
  · intro anc left kids right x hl hlast
    obtain ⟨l, hl', hx⟩ := hl.links hr.root
    have e : nodeChildren t.nodes x.id = ⟨kids.headId, kids.lastId⟩ := by
      simp only [nodeChildren, hx, mkLinks]
      rw [hl'.2.2.2, ← (hr.node_last hl).2.2.2, hlast]
      rfl
    rw [e]
    have hd := hl.depth_lt
    simp only [Forest.size] at hd
    exact children_plays (hl.kids hr.root) (hl.nodup_kids hr.nodup).2 (by omega) cs

/-- The children of 0 are 3 and 4: 4 from the back has the new value, then 3 from the front. -/
example : (session Children.next Children.nextBack
    [.replace 4 7, .ask .nextBack, .ask (.findNode fun _ => true), .ask .nextNodeBack]
    demoTree.nodes (nodeChildren demoTree.nodes 0)).1 =
    [.some (4, some 7), .some (3, some 4), .none] := by
  rw [((C60_both_ends demo_made _).2 (.root (left := .nil) rfl)
    (((C14_last_iff demo_made).2 (.root (left := .nil) rfl)).2 (.inr rfl))).1]
  decide

/-- C60 for `next()` and `next_with_depth()` on the same walk, with values replaced in between, from
the tree or from a node: each call hands out the following node of the walk, with its depth if asked
for; whatever has been called before, the iterator as it is, or turned into `with_depths()`, hands out
the rest. -/
theorem C60_walk_with_depth (h : Made fl t F) (cs : List (WalkCmd α)) {w : WalkEvents}
    (hw : w = t.walk ∨ ∃ i, i < t.len ∧ (w = nodeWalk i ∨ w = nodeWalkFrom i)) :
    ∃ l, Yields (WithDepths.next t.nodes) w l ∧ Yields (Walk.next t.nodes) w (l.map (·.2)) ∧
      let r := walkSession cs t.nodes w
      let q := listWalk cs (nodeValue t.nodes) l
      r.1 = q.1.map Got.ofOption ∧ nodeValue r.2.1 = q.2.1 ∧ SameShape t.nodes r.2.1 ∧
        Yields (WithDepths.next r.2.1) r.2.2 q.2.2 ∧
        Yields (Walk.next r.2.1) r.2.2 (q.2.2.map (·.2)) := by
  have hr := h.represents
  have hfu : ∀ (nodes : Slice α) s s', WithDepths.next nodes s = (s', .none) →
      ∃ s'', WithDepths.next nodes s' = (s'', .none) := by
    intro nodes s s' e
    have := ((C19_fused nodes).2.2.1 s s' e).1
    cases this with
    | done e => exact ⟨_, e⟩
  have key : ∃ l, Yields (WithDepths.next t.nodes) w l := by
    rcases hw with rfl | ⟨i, hi, hw⟩
    · exact ⟨_, hr.with_depths⟩
    · obtain ⟨anc, left, x, kids, right, rfl, hl⟩ := (C17_links_match_place h).1 i hi
      obtain ⟨pre, post, _, h1, _, h2, _⟩ := hr.node_walk hl
      rcases hw with rfl | rfl
      · exact ⟨_, h1⟩
      · exact ⟨_, h2⟩
  obtain ⟨l, hl⟩ := key
  obtain ⟨h1, h2, h3, h4⟩ := walkSession_ok hfu cs t.nodes l w hl
  exact ⟨l, hl, hl.mapped (walk_depths _), h1, h2, sameShape_bare h3, h4, h4.mapped (walk_depths _)⟩

example : (walkSession [.next, .nextWithDepth, .replace 1 8, .next, .nextWithDepth]
    demoTree.nodes demoTree.walk).1 =
    [.some (none, 0, some 1), .some (some 1, 3, some 4), .some (none, 1, some 8),
      .some (some 2, 2, some 3)] := by
  obtain ⟨l, hl, _, h1, _⟩ := C60_walk_with_depth demo_made
    [.next, .nextWithDepth, .replace 1 8, .next, .nextWithDepth] (.inl rfl)
  have : l = [(0, 0), (1, 3), (2, 1), (2, 2), (1, 4), (0, 5)] :=
    hl.det demo_made.represents.with_depths
  rw [h1, this]
  decide

/-! ## C61 -/

/-- C61: on any tree and with any iterator, the value a program reads from a node that a call hands
out is the one it wrote last to that node, or the original one if it wrote none; and at the end the
tree holds for each node the value written last. -/
theorem C61_reads_last_write {σ : Type} (next back : Slice α → NextFn σ Nat) (cs : List (Cmd α))
    (a : Ask) (nodes : Slice α) (s : σ) {i : Nat} {v : Option α}
    (hv : (session next back (cs ++ [.ask a]) nodes s).1.getLast? = some (.some (i, v))) :
    v = (nodeValue nodes i).map (fun old => (lastWrite cs i).getD old) ∧
    nodeValue (session next back cs nodes s).2.1 =
      fun i => (nodeValue nodes i).map fun old => (lastWrite cs i).getD old := by
  refine ⟨?_, funext fun i => session_value next back cs nodes s i⟩
  rw [session_append] at hv
  simp only [session, List.getLast?_append, List.getLast?_singleton, Option.some_or,
    Option.some.injEq] at hv
  rw [← session_value next back cs nodes s i]
  generalize (a.call (session next back cs nodes s).2.1 _ _ _).2 = g at hv
  cases g with
  | none => simp [Got.map] at hv
  | diverge => simp [Got.map] at hv
  | some k =>
    simp only [Got.map, Got.some.injEq, Prod.mk.injEq] at hv
    rw [← hv.1, ← hv.2]

/-- Node 3 is written twice before the walk gets there. -/
example : ∃ v, (session Walk.next Walk.next
    ([.replace 3 7, .ask .next, .replace 3 9] ++ [.ask .next]) demoTree.nodes demoTree.walk).1.getLast? =
      some (.some (3, v)) ∧ v = some 9 := by
  refine ⟨_, rfl, ?_⟩
  exact (C61_reads_last_write Walk.next Walk.next [.replace 3 7, .ask .next, .replace 3 9] .next
    demoTree.nodes demoTree.walk (i := 3) rfl).1

/-! ## C62 -/

/-- C62, partial: if a node has children or no next sibling, then `inside()` of its walk hands out
exactly what is left of its subtree, however many nodes of the subtree the walk has handed out
before. Missing: childless nodes with a next sibling, for which it is false (`C62_fails`). -/
theorem C62_inside_midway_partial (h : Made fl t F) {anc : List (Lab α)}
    {left kids right : Forest (Lab α)} {x : Lab α} (hl : Loc F anc left x kids right)
    (hk : kids ≠ .nil ∨ right = .nil) {j : Nat}
    (hj : j ≤ (x.id :: kids.preorder.map (·.id)).length) :
    Yields (Inside.next t.nodes)
      (Nat.repeat (fun s => (Walk.next t.nodes s).1) j (nodeWalk x.id))
      ((x.id :: kids.preorder.map (·.id)).drop j) := by
  have hr := h.represents
  cases j with
  | zero => exact (hr.inside hl).1
  | succ j =>
    have hlen := preorder_length kids
    simp only [List.length_cons, List.length_map] at hj
    by_cases hn : kids = .nil
    · subst hn
      obtain rfl : right = .nil := hk.resolve_left (by simp)
      have : j = 0 := by simpa using hj
      subst this
      exact hr.inside_after_leaf hl
    · exact hr.inside_midway hl hn (by omega)

/-- One call of `next()` on the walk of node 3, the rest with `inside()`. -/
example : Yields (Inside.next demoTree.nodes)
    (Nat.repeat (fun s => (Walk.next demoTree.nodes s).1) 1 (nodeWalk 3)) [1, 2] :=
  C62_inside_midway_partial demo_made demo_loc (.inl (by simp)) (by decide)

/-- C62, the case that is missing, exactly: after a childless node with a next sibling has been
handed out, `inside()` hands out the next sibling and its descendants. -/
theorem C62_childless_exact (h : Made fl t F) {anc : List (Lab α)}
    {left k r : Forest (Lab α)} {x y : Lab α} (hl : Loc F anc left x .nil (.cons y k r)) :
    Yields (Inside.next t.nodes) (Walk.next t.nodes (nodeWalk x.id)).1
      (y.id :: k.preorder.map (·.id)) := by
  have hr := h.represents
  rw [hr.walk_leaf hl]
  have hy := hl.shift (left' := left ++ .single x .nil) (y := y) (k' := k) (r' := r)
    (by rw [append_assoc]; rfl)
  exact (hr.inside hy).1

/-- C62 fails: `a` is a token in front of `b`, which has a child. After `next()` on `a.walk()` has
returned `a`, nothing of `a` is left, but `inside()` hands out `b` and its child. -/
theorem C62_fails : ∃ (ops : List (Op Nat)) (t : Tree Nat) (F : Forest (Lab Nat)),
    Built Flavor.default ops t F ∧ nodeIsEmpty t.nodes 0 = true ∧
    (Walk.next t.nodes (nodeWalk 0)).2 = .some 0 ∧
    Yields (Inside.next t.nodes) (nodeWalk 0) [0] ∧
    Yields (Inside.next t.nodes) (Walk.next t.nodes (nodeWalk 0)).1 [1, 2] := by
  have hb : Built Flavor.default [.token 1 1, .open 2, .token 3 1, .close] _ _ :=
    ⟨_, _, rfl, rfl, rfl⟩
  exact ⟨_, _, _, hb, rfl, rfl,
    (C11_inside_is_subtree (.built hb) (.root (left := .nil) rfl)).1,
    C62_childless_exact (.built hb) (.root (left := .nil) rfl)⟩

/-- C62: `tree.walk().inside()` hands out the first root and its descendants only. -/
theorem C62_tree_inside (h : Made fl t F) :
    Yields (Inside.next t.nodes) t.walk
      (match F with
      | .nil => []
      | .cons x kids _ => x.id :: kids.preorder.map (·.id)) := by
  have hr := h.represents
  have hf := hr.first
  cases F with
  | nil => 
    refine .done (s' := t.walk) ?_
    simp only [headId_nil] at hf
    simp [Tree.walk, hf, Inside.next, Inside.nextLoop, WalkEvents.new, WalkEvents.next]
  | cons x kids right =>
    have e : t.walk = nodeWalk x.id := by
      unfold Tree.walk nodeWalk
      rw [hf]; rfl
    rw [e]
    exact (hr.inside (.root (left := .nil) rfl)).1

example : Yields (Inside.next demoTree.nodes) demoTree.walk [0, 3, 1, 2, 4] :=
  C62_tree_inside demo_made

end Syntree
