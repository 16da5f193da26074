import Verif.Proof.Last
import Verif.Proof.More
import Verif.Proof.Made

/-!
# Properties C06 – C20: reading a built tree

`Made fl t F` (`Spec/Made.lean`): `t` was made by a builder, and possibly edited afterwards with
`ChangeSet::modify` and `Node::replace`; `F` is its nested list of nodes.
`Built fl ops t F` (`Spec/Built.lean`): `t` is what `build()` returns after the history `ops` and
`F` is the nested list the specification says was built.
-/

namespace Syntree

variable {α : Type} {fl : Flavor} {ops : List (Op α)} {t : Tree α} {F : Forest (Lab α)}

open Forest

/-! A witness used below: nested nodes, a wrapped pair, an empty token, a childless node. -/

/-- open 1; checkpoint; token 2 (3 long); token_empty 3; close_at 4; open 5; close; close; token. -/
def demoOps : List (Op Nat) :=
  [.open 1, .checkpoint, .token 2 3, .tokenEmpty 3, .closeAt 0 4, .open 5, .close, .close,
    .token 6 1]

def demoForest : Forest (Lab Nat) :=
  .cons ⟨0, 1, ⟨0, 3⟩⟩
    (.cons ⟨3, 4, ⟨0, 3⟩⟩ (.cons ⟨1, 2, ⟨0, 3⟩⟩ .nil (.cons ⟨2, 3, ⟨3, 3⟩⟩ .nil .nil))
      (.cons ⟨4, 5, ⟨3, 3⟩⟩ .nil .nil))
    (.cons ⟨5, 6, ⟨3, 4⟩⟩ .nil .nil)

def demoTree : Tree Nat :=
  (Sys.init.run Flavor.default demoOps).1.b.tree

theorem demo_built : Built Flavor.default demoOps demoTree demoForest :=
  ⟨_, _, rfl, rfl, rfl⟩

theorem demo_made : Made Flavor.default demoTree demoForest := .built demo_built

theorem demo_loc : Loc demoForest [⟨0, 1, ⟨0, 3⟩⟩] .nil ⟨3, 4, ⟨0, 3⟩⟩
    (.cons ⟨1, 2, ⟨0, 3⟩⟩ .nil (.cons ⟨2, 3, ⟨3, 3⟩⟩ .nil .nil))
    (.cons ⟨4, 5, ⟨3, 3⟩⟩ .nil .nil) :=
  .child (.root (left := .nil) rfl) rfl

/-! ## C06 -/

/-- C06: `tree.walk()` ends after yielding every node exactly once, in document order. -/
theorem C06_walk_once_in_order (h : Made fl t F) :
    Yields (Walk.next t.nodes) t.walk (F.preorder.map (·.id)) ∧
    (F.preorder.map (·.id)).Nodup ∧
    ∀ i, i ∈ F.preorder.map (·.id) ↔ i < t.len := by
  have hr := h.represents
  refine ⟨hr.walk, hr.nodup, fun i => ?_⟩
  have := hr.perm.mem_iff (a := i)
  rw [ids] at this
  rw [this]; simp [Tree.len]

example : Yields (Walk.next demoTree.nodes) demoTree.walk [0, 3, 1, 2, 4, 5] :=
  (C06_walk_once_in_order demo_made).1

/-! ## C07 -/

/-- C07: `tree.walk_events()` is the bracketed traversal. -/
theorem C07_walk_events_bracketed (h : Made fl t F) :
    Yields (WalkEvents.next t.nodes) t.walk ((F.events .next).map fun p => (p.1, p.2.id)) :=
  h.represents.walk_events

example : Yields (WalkEvents.next demoTree.nodes) demoTree.walk
    [(.next, 0), (.down, 3), (.down, 1), (.next, 2), (.up, 3), (.next, 4), (.up, 0), (.next, 5)] :=
  C07_walk_events_bracketed demo_made

/-! ## C08 -/

/-- C08: `with_depths()` yields every node, in document order, with its number of proper
ancestors. -/
theorem C08_depth_is_number_of_ancestors (h : Made fl t F) :
    ∃ l, Yields (WithDepths.next t.nodes) t.walk l ∧ l.map (·.2) = F.preorder.map (·.id) ∧
      (∀ d i, (d, i) ∈ l → ∃ path, Yields (Ancestors.next t.nodes) (nodeAncestors i) path ∧
        (path.length : Int) = d + 1) ∧
      l = (F.depths 0).map fun p => ((p.1 : Int), p.2.id) := by
  have hr := h.represents
  refine ⟨_, hr.with_depths, ?_, ?_, rfl⟩
  · rw [List.map_map, ← depths_snd 0 F, List.map_map]; rfl
  · intro d i hm
    obtain ⟨⟨d', x⟩, hx, he⟩ := List.mem_map.1 hm
    simp only [Prod.mk.injEq] at he
    obtain ⟨rfl, rfl⟩ := he
    obtain ⟨anc, left, kids, right, hlen, hl⟩ := Loc.of_depths hx
    exact ⟨_, hr.ancestors hl, by simp [hlen]⟩

example : ∃ l, Yields (WithDepths.next demoTree.nodes) demoTree.walk l ∧
    l = [(0, 0), (1, 3), (2, 1), (2, 2), (1, 4), (0, 5)] := by
  obtain ⟨l, h1, _, _, h2⟩ := C08_depth_is_number_of_ancestors demo_made
  exact ⟨l, h1, h2⟩

/-! ## C09 -/

/-- C09: if `tree.walk()` yields `pre`, then `i`, then `post`, then `walk()` of node `i` yields
`i` and then `post`. -/
theorem C09_node_walk_is_suffix (h : Made fl t F) {pre post : List Nat} {i : Nat}
    (hw : Yields (Walk.next t.nodes) t.walk (pre ++ i :: post)) :
    Yields (Walk.next t.nodes) (nodeWalk i) (i :: post) := by
  have hr := h.represents
  have e := hr.walk.det hw
  have hi : i ∈ F.ids := by rw [e]; simp
  obtain ⟨anc, left, x, kids, right, rfl, hl⟩ := Loc.of_id hi
  obtain ⟨pre', post', e1, _, h2, _, _⟩ := hr.node_walk hl
  have e2 := congrArg (List.map (·.2)) e1
  have e3 : ((F.depths 0).map (fun p => ((p.1 : Int) - anc.length, p.2.id))).map (·.2) = F.ids := by
    rw [List.map_map, ids, ← depths_snd 0 F, List.map_map]; rfl
  have hk : ((kids.depths 1).map fun p => ((p.1 : Int), p.2.id)).map (·.2) = kids.ids := by
    rw [List.map_map, ids, ← depths_snd 1 kids, List.map_map]; rfl
  rw [e3, e] at e2
  simp only [List.cons_eq_cons, List.map_append, List.map_cons, hk, List.cons_append] at e2
  have nd : (pre ++ x.id :: post).Nodup := e ▸ hr.nodup
  have := nodup_split nd e2
  rw [this.2]; simpa using h2

example : Yields (Walk.next demoTree.nodes) (nodeWalk 1) [1, 2, 4, 5] :=
  C09_node_walk_is_suffix demo_made (pre := [0, 3]) (C06_walk_once_in_order demo_made).1

/-! ## C10 -/

/-- C10: `walk_from()` of a node yields exactly what follows its whole subtree in
`tree.walk()`. -/
theorem C10_walk_from_skips_subtree (h : Made fl t F) {anc : List (Lab α)}
    {left kids right : Forest (Lab α)} {x : Lab α} (hl : Loc F anc left x kids right)
    {pre post : List Nat}
    (hw : Yields (Walk.next t.nodes) t.walk
      (pre ++ (x.id :: kids.preorder.map (·.id)) ++ post)) :
    Yields (Walk.next t.nodes) (nodeWalkFrom x.id) post := by
  have hr := h.represents
  have hw2 := C09_node_walk_is_suffix h (pre := pre) (i := x.id)
    (post := kids.preorder.map (·.id) ++ post) (by simpa using hw)
  obtain ⟨pre', post', _, _, h2, _, h3⟩ := hr.node_walk hl
  have := hw2.det h2
  simp only [ids, List.cons_append, List.cons.injEq, true_and, List.append_cancel_left_eq] at this
  rw [this]; exact h3

example : Yields (Walk.next demoTree.nodes) (nodeWalkFrom 3) [4, 5] :=
  C10_walk_from_skips_subtree demo_made demo_loc (pre := [0]) (C06_walk_once_in_order demo_made).1

/-! ## C11 -/

/-- C11: `walk().inside()` of a node yields exactly the node and its descendants in document order,
`walk_from().inside()` yields nothing. -/
theorem C11_inside_is_subtree (h : Made fl t F) {anc : List (Lab α)}
    {left kids right : Forest (Lab α)} {x : Lab α} (hl : Loc F anc left x kids right) :
    Yields (Inside.next t.nodes) (nodeWalk x.id) (x.id :: kids.preorder.map (·.id)) ∧
    Yields (Inside.next t.nodes) (nodeWalkFrom x.id) [] :=
  h.represents.inside hl

example : Yields (Inside.next demoTree.nodes) (nodeWalk 3) [3, 1, 2] :=
  (C11_inside_is_subtree demo_made demo_loc).1

/-! ## C12 -/

/-- C12: `children()`, iterated forwards, yields exactly the direct children in order. -/
theorem C12_children_in_order (h : Made fl t F) :
    Yields (Children.next t.nodes) t.children (F.tops.map (·.id)) ∧
    ∀ {anc : List (Lab α)} {left kids right : Forest (Lab α)} {x : Lab α},
      Loc F anc left x kids right →
      Yields (Children.next t.nodes) (nodeChildren t.nodes x.id) (kids.tops.map (·.id)) :=
  ⟨h.represents.children, fun hl => h.represents.node_children hl⟩

example : Yields (Children.next demoTree.nodes) (nodeChildren demoTree.nodes 3) [1, 2] :=
  (C12_children_in_order demo_made).2 demo_loc

/-! ## C13 -/

theorem children_ends_exact (hr : Represents true t F) (bs : List Bool) :
    runEnds (Children.next t.nodes) (Children.nextBack t.nodes) bs t.children =
      (takeEnds bs (F.tops.map (·.id))).map Got.ofOption ∧
    ∀ {anc : List (Lab α)} {left kids right : Forest (Lab α)} {x : Lab α},
      Loc F anc left x kids right →
      runEnds (Children.next t.nodes) (Children.nextBack t.nodes) bs (nodeChildren t.nodes x.id) =
        (takeEnds bs (kids.tops.map (·.id))).map Got.ofOption := by
  constructor
  · have := children_ends_whole hr.root hr.nodup bs
    have e : t.children = ⟨F.headId, F.lastId⟩ := by
      unfold Tree.children
      rw [hr.first, hr.last.2.2.1 rfl]
    rw [e]; exact this
  · intro anc left kids right x hl
    obtain ⟨l, hl', hx⟩ := hl.links hr.root
    have e : nodeChildren t.nodes x.id = ⟨kids.headId, kids.lastId⟩ := by
      simp only [nodeChildren, hx, mkLinks, hl'.2.2.1 rfl]
    rw [e]
    exact children_ends_whole (hl.kids hr.root) (hl.nodup_kids hr.nodup).2 bs

/-- C13, partial: any interleaving of `next` and `next_back` on `children()` hands out the children
from the two ends. Missing: histories with a `close_at` that wraps several siblings, or wraps at
the root level, for which it is false (`C13_fails_after_close_at`). -/
theorem C13_double_ended_partial (h : Built fl ops t F) (hg : Nest.GentleRun fl Nest.init ops)
    (bs : List Bool) :
    runEnds (Children.next t.nodes) (Children.nextBack t.nodes) bs t.children =
      (takeEnds bs (F.tops.map (·.id))).map Got.ofOption ∧
    ∀ {anc : List (Lab α)} {left kids right : Forest (Lab α)} {x : Lab α},
      Loc F anc left x kids right →
      runEnds (Children.next t.nodes) (Children.nextBack t.nodes) bs (nodeChildren t.nodes x.id) =
        (takeEnds bs (kids.tops.map (·.id))).map Got.ofOption :=
  children_ends_exact (h.represents_gentle hg) bs

/-- A gentle history with a `close_at`. -/
def gentleOps : List (Op Nat) :=
  [.open 1, .checkpoint, .token 2 3, .closeAt 0 4, .token 5 1, .tokenEmpty 6, .close]

def gentleForest : Forest (Lab Nat) :=
  .cons ⟨0, 1, ⟨0, 4⟩⟩ (.cons ⟨2, 4, ⟨0, 3⟩⟩ (.cons ⟨1, 2, ⟨0, 3⟩⟩ .nil .nil)
    (.cons ⟨3, 5, ⟨3, 4⟩⟩ .nil (.cons ⟨4, 6, ⟨4, 4⟩⟩ .nil .nil))) .nil

def gentleTree : Tree Nat := (Sys.init.run Flavor.default gentleOps).1.b.tree

theorem gentle_built : Built Flavor.default gentleOps gentleTree gentleForest :=
  ⟨_, _, rfl, rfl, rfl⟩

theorem gentle_run : Nest.GentleRun Flavor.default Nest.init gentleOps := by
  refine ⟨trivial, ?_⟩; intro n o h; simp only [Nest.step, Option.some.injEq] at h
  obtain ⟨rfl, rfl⟩ := Prod.mk.inj h
  refine ⟨trivial, ?_⟩; intro n o h; simp only [Nest.step, Option.some.injEq] at h
  obtain ⟨rfl, rfl⟩ := Prod.mk.inj h
  refine ⟨trivial, ?_⟩; intro n o h; simp only [Nest.step, Option.some.injEq] at h
  obtain ⟨rfl, rfl⟩ := Prod.mk.inj h
  refine ⟨?_, ?_⟩
  · rintro m hm
    have : m = ⟨some 0, 0, true⟩ := by
      have h' : (some (⟨some 0, 0, true⟩ : Mark)) = some m := hm
      simpa using h'.symm
    subst this
    exact .inr ⟨⟨⟨1, 2, ⟨0, 3⟩⟩, rfl⟩, by intro h; cases h⟩
  · intro n o h
    exact ⟨trivial, fun _ _ _ => ⟨trivial, fun _ _ _ => ⟨trivial, fun _ _ _ => trivial⟩⟩⟩

example : runEnds (Children.next gentleTree.nodes) (Children.nextBack gentleTree.nodes)
    [false, true, false, false] (nodeChildren gentleTree.nodes 0) =
    [.some 4, .some 2, .some 3, .none] :=
  (C13_double_ended_partial gentle_built gentle_run _).2 (Loc.root (left := .nil) rfl)

/-- C13 fails in general: after `close_at` has wrapped two nodes, `children()` from the back yields
a grandchild (here `2` and then `1`, children of `3`, instead of `3`). -/
theorem C13_fails_after_close_at :
    ∃ (ops : List (Op Nat)) (t : Tree Nat) (F : Forest (Lab Nat)),
      Built Flavor.default ops t F ∧ F.tops.map (·.id) = [0] ∧
      (∃ k, F = .cons ⟨0, 1, ⟨0, 2⟩⟩ k .nil ∧ k.tops.map (·.id) = [3]) ∧
      runEnds (Children.next t.nodes) (Children.nextBack t.nodes) [false, false, false]
        (nodeChildren t.nodes 0) = [.some 2, .some 1, .none] := by
  refine ⟨[.open 1, .checkpoint, .token 2 1, .token 3 1, .closeAt 0 4, .close], _, _,
    ⟨_, _, rfl, rfl, rfl⟩, rfl, ⟨_, rfl, rfl⟩, rfl⟩

/-! ## C14 -/

/-- C14, partial: `last()` is the last child. Missing: the same histories as in C13
(`C14_fails_after_close_at`). -/
theorem C14_last_partial (h : Built fl ops t F) (hg : Nest.GentleRun fl Nest.init ops) :
    t.lastNode = (F.tops.map (·.id)).getLast? ∧
    ∀ {anc : List (Lab α)} {left kids right : Forest (Lab α)} {x : Lab α},
      Loc F anc left x kids right →
      nodeLast t.nodes x.id = (kids.tops.map (·.id)).getLast? :=
  ⟨(h.represents_gentle hg).tree_last.2.2.1 rfl,
    fun hl => ((h.represents_gentle hg).node_last hl).2.2.1 rfl⟩

example : nodeLast gentleTree.nodes 0 = some 4 :=
  (C14_last_partial gentle_built gentle_run).2 (Loc.root (left := .nil) rfl)

/-- C14, partial, for all histories: `last()` is a node of the right edge (the last child, its last
child, and so on), and it is `None` exactly if there are no children. -/
theorem C14_last_on_right_edge_partial (h : Made fl t F) :
    ((t.lastNode = none ↔ F = .nil) ∧ ∀ i, t.lastNode = some i → i ∈ F.spine.map (·.id)) ∧
    ∀ {anc : List (Lab α)} {left kids right : Forest (Lab α)} {x : Lab α},
      Loc F anc left x kids right →
      (nodeLast t.nodes x.id = none ↔ kids = .nil) ∧
      ∀ i, nodeLast t.nodes x.id = some i → i ∈ kids.spine.map (·.id) := by
  have key : ∀ {o l : Option Nat} {k : Forest (Lab α)}, LastRel false o l k →
      (l = none ↔ k = .nil) ∧ ∀ i, l = some i → i ∈ k.spine.map (·.id) := by
    intro o l k hl
    by_cases hk : k = .nil
    · subst hk
      rw [hl.1 rfl]; simp
    · obtain ⟨j, rfl, hj⟩ := hl.2.1 hk
      refine ⟨by simp [hk], ?_⟩
      rintro i hi
      simp only [Option.some.injEq] at hi
      rwa [← hi]
  exact ⟨key h.represents.tree_last, fun hl => key (h.represents.node_last hl)⟩

example : ∀ i, nodeLast demoTree.nodes 3 = some i → i ∈ [2] :=
  ((C14_last_on_right_edge_partial demo_made).2 demo_loc).2

/-- C14 fails in general: after wrapping everything at the root level, `tree.last()` is not the
only root but a node inside of it; the same below the root level when two nodes are wrapped. -/
theorem C14_fails_after_close_at :
    (∃ (ops : List (Op Nat)) (t : Tree Nat) (F : Forest (Lab Nat)),
      Built Flavor.default ops t F ∧ F.tops.map (·.id) = [1] ∧ t.lastNode = some 0) ∧
    (∃ (ops : List (Op Nat)) (t : Tree Nat) (F : Forest (Lab Nat)),
      Built Flavor.default ops t F ∧
      (∃ x k, F = .cons x k .nil ∧ x.id = 0 ∧ k.tops.map (·.id) = [3]) ∧
      nodeLast t.nodes 0 = some 2) := by
  refine ⟨⟨[.checkpoint, .token 2 1, .closeAt 0 4], _, _, ⟨_, _, rfl, rfl, rfl⟩, rfl, rfl⟩,
    ⟨[.open 1, .checkpoint, .token 2 1, .token 3 1, .closeAt 0 4, .close], _, _,
      ⟨_, _, rfl, rfl, rfl⟩, ⟨_, _, rfl, rfl, rfl⟩, rfl⟩⟩

/-- C14, exactly, for every tree: `last()` returns what `Forest.lastLink` (`Spec/Last.lean`) says. -/
theorem C14_last_exact (h : Made fl t F) :
    t.lastNode = F.lastLink none ∧
    ∀ {anc : List (Lab α)} {left kids right : Forest (Lab α)} {x : Lab α},
      Loc F anc left x kids right → nodeLast t.nodes x.id = kids.lastLink (some x.id) :=
  ⟨h.represents.tree_last.2.2.2, fun hl => (h.represents.node_last hl).2.2.2⟩

/-- C14, exactly: `tree.last()` is the last root if and only if that root was not put around other
nodes with `close_at`; `node.last()` is the last child if and only if the node itself was made with
`close_at`, or its last child was not, or only to wrap one node that was last in the same sense. -/
theorem C14_last_iff (h : Made fl t F) :
    (t.lastNode = (F.tops.map (·.id)).getLast? ↔ F.lastSeen true = true) ∧
    ∀ {anc : List (Lab α)} {left kids right : Forest (Lab α)} {x : Lab α},
      Loc F anc left x kids right →
      (nodeLast t.nodes x.id = (kids.tops.map (·.id)).getLast? ↔
        kids.wrappedBy x.id = true ∨ kids.lastSeen false = true) := by
  obtain ⟨h1, h2⟩ := C14_last_exact h
  refine ⟨by rw [h1]; exact heldLast_iff true F h.represents.nodup, fun hl => ?_⟩
  rw [h2 hl]
  have := heldLast_iff false _ (hl.nodup_kids h.represents.nodup).2
  simp only [lastLink]
  split
  · rename_i hw
    exact ⟨fun _ => .inl hw, fun _ => rfl⟩
  · rename_i hw
    exact this.trans ⟨.inr, fun h => h.resolve_left hw⟩

/-- Node 0 with the child 3 around 1 and 2, and then 4: the last child 4 is found. -/
example : nodeLast demoTree.nodes 0 = some 4 :=
  ((C14_last_iff demo_made).2 (.root (left := .nil) rfl)).2 (.inr rfl)

theorem children_back {nodes : Slice α} {k : Forest (Lab α)} {l : Option Nat}
    (hl : ∀ i, l = some i → ∃ n, nodes[i]? = some n) (hn : l = none ↔ k = .nil) :
    runEnds (Children.next nodes) (Children.nextBack nodes) [false] ⟨k.headId, l⟩ =
      [Got.ofOption l] := by
  cases l with
  | none => rfl
  | some i =>
    obtain ⟨n, hi⟩ := hl i rfl
    cases k with
    | nil => simp at hn
    | cons y ky r =>
      simp only [runEnds, Children.nextBack, headId_cons, hi, Got.ofOption]
      by_cases he : i = y.id <;> simp [he]

/-- C13, exactly, for every tree: `children()` can be iterated from both ends, in any interleaving,
if and only if `last()` is right (for which see `C14_last_iff`). -/
theorem C13_double_ended_iff (h : Made fl t F) :
    ((∀ bs, runEnds (Children.next t.nodes) (Children.nextBack t.nodes) bs t.children =
        (takeEnds bs (F.tops.map (·.id))).map Got.ofOption) ↔
      t.lastNode = (F.tops.map (·.id)).getLast?) ∧
    ∀ {anc : List (Lab α)} {left kids right : Forest (Lab α)} {x : Lab α},
      Loc F anc left x kids right →
      ((∀ bs, runEnds (Children.next t.nodes) (Children.nextBack t.nodes) bs
          (nodeChildren t.nodes x.id) = (takeEnds bs (kids.tops.map (·.id))).map Got.ofOption) ↔
        nodeLast t.nodes x.id = (kids.tops.map (·.id)).getLast?) := by
  have hr := h.represents
  have key : ∀ {k : Forest (Lab α)} {par o l : Option Nat}, Seg false t.nodes k par none none →
      k.ids.Nodup → (∀ i ∈ k.ids, ∃ n, t.nodes[i]? = some n) → LastRel false o l k →
      ((∀ bs, runEnds (Children.next t.nodes) (Children.nextBack t.nodes) bs ⟨k.headId, l⟩ =
        (takeEnds bs (k.tops.map (·.id))).map Got.ofOption) ↔ l = (k.tops.map (·.id)).getLast?) := by
    intro k par o l hs hnd hm hl
    constructor
    · intro hb
      have h1 := hb [false]
      rw [children_back] at h1
      · simp only [takeEnds, List.map_cons, List.map_nil, List.cons.injEq, and_true] at h1
        cases l with
        | none =>
          cases hg : (k.tops.map (·.id)).getLast? with
          | none => rfl
          | some j => rw [hg] at h1; simp [Got.ofOption] at h1
        | some i =>
          cases hg : (k.tops.map (·.id)).getLast? with
          | none => rw [hg] at h1; simp [Got.ofOption] at h1
          | some j =>
            rw [hg] at h1
            simp only [Got.ofOption, Got.some.injEq] at h1
            rw [h1]
      · intro i hi
        have hk : k ≠ .nil := by intro hk; rw [hl.1 hk] at hi; simp at hi
        obtain ⟨j, h2, h3⟩ := hl.2.1 hk
        rw [hi] at h2
        simp only [Option.some.injEq] at h2
        subst h2
        obtain ⟨z, hz, rfl⟩ := List.mem_map.1 h3
        exact hm _ (List.mem_map_of_mem (mem_preorder_of_spine hz))
      · refine ⟨fun hi => ?_, hl.1⟩
        cases k with
        | nil => rfl
        | cons =>
          obtain ⟨j, h2, _⟩ := hl.2.1 (by simp)
          rw [hi] at h2; simp at h2
    · intro he bs
      have := children_ends_whole hs hnd bs
      rw [he]; exact this
  constructor
  · have e : t.children = ⟨F.headId, t.lastNode⟩ := by
      unfold Tree.children
      rw [hr.first]
      congr 1
      cases hx : t.last with
      | none => simp [Tree.lastNode, hx]
      | some i =>
        have h1 := hr.last
        have hk : F ≠ .nil := by intro hk; rw [h1.1 hk] at hx; simp at hx
        obtain ⟨j, h2, h3⟩ := h1.2.1 hk
        rw [hx] at h2
        simp only [Option.some.injEq] at h2
        subst h2
        obtain ⟨z, hz, rfl⟩ := List.mem_map.1 h3
        have := hr.nodeAt_mem (List.mem_map_of_mem (mem_preorder_of_spine hz))
        simp [Tree.lastNode, hx, Tree.get, this]
    rw [e]
    refine key hr.root hr.nodup (fun i hi => ?_) hr.tree_last
    obtain ⟨z, hz, rfl⟩ := List.mem_map.1 hi
    obtain ⟨l, h1, _⟩ := hr.root.lookup hz
    exact ⟨l, h1⟩
  · intro anc left kids right x hl
    obtain ⟨l, hl', hx⟩ := hl.links hr.root
    have e2 : nodeLast t.nodes x.id = l := by
      rw [(hr.node_last hl).2.2.2, hl'.2.2.2]
    have e : nodeChildren t.nodes x.id = ⟨kids.headId, l⟩ := by
      simp only [nodeChildren, hx, mkLinks]
    rw [e, e2]
    refine key (hl.kids hr.root) (hl.nodup_kids hr.nodup).2 (fun i hi => ?_) hl'
    obtain ⟨z, hz, rfl⟩ := List.mem_map.1 hi
    obtain ⟨l, h1, _⟩ := (hl.kids hr.root).lookup hz
    exact ⟨l, h1⟩

example (bs : List Bool) : runEnds (Children.next demoTree.nodes) (Children.nextBack demoTree.nodes)
    bs (nodeChildren demoTree.nodes 0) = (takeEnds bs [3, 4]).map Got.ofOption :=
  ((C13_double_ended_iff demo_made).2 (.root (left := .nil) rfl)).2
    (((C14_last_iff demo_made).2 (.root (left := .nil) rfl)).2 (.inr rfl)) bs

/-! ## C15, C16 -/

/-- C15: `siblings()` yields the node and then its following siblings. -/
theorem C15_siblings (h : Made fl t F) {anc : List (Lab α)}
    {left kids right : Forest (Lab α)} {x : Lab α} (hl : Loc F anc left x kids right) :
    Yields (Siblings.next t.nodes) (nodeSiblings x.id) (x.id :: right.tops.map (·.id)) :=
  h.represents.siblings hl

example : Yields (Siblings.next demoTree.nodes) (nodeSiblings 3) [3, 4] :=
  C15_siblings demo_made demo_loc

/-- C16: `ancestors()` yields the node, its parent, and so on up to the root. -/
theorem C16_ancestors (h : Made fl t F) {anc : List (Lab α)}
    {left kids right : Forest (Lab α)} {x : Lab α} (hl : Loc F anc left x kids right) :
    Yields (Ancestors.next t.nodes) (nodeAncestors x.id) (x.id :: anc.map (·.id)) :=
  h.represents.ancestors hl

example : Yields (Ancestors.next demoTree.nodes) (nodeAncestors 3) [3, 0] :=
  C16_ancestors demo_made demo_loc

/-! ## C17 -/

/-- Every node of the tree has a place in `F`, and `parent()`, `prev()`, `next()`, `first()`,
`value()`, `span()`, `has_children()` and `is_empty()` are what that place says. -/
theorem C17_links_match_place (h : Made fl t F) :
    (∀ i, i < t.len → ∃ anc left x kids right, x.id = i ∧ Loc F anc left x kids right) ∧
    t.firstNode = (F.tops.map (·.id)).head? ∧
    ∀ {anc : List (Lab α)} {left kids right : Forest (Lab α)} {x : Lab α},
      Loc F anc left x kids right →
      t.get x.id = some x.id ∧
      nodeValue t.nodes x.id = some x.data ∧ nodeSpan t.nodes x.id = some x.span ∧
      nodeParent t.nodes x.id = anc.head?.map (·.id) ∧
      nodePrev t.nodes x.id = (left.tops.map (·.id)).getLast? ∧
      nodeNext t.nodes x.id = (right.tops.map (·.id)).head? ∧
      nodeFirst t.nodes x.id = (kids.tops.map (·.id)).head? ∧
      (hasChildren t.nodes x.id = true ↔ kids ≠ .nil) ∧
      (nodeIsEmpty t.nodes x.id = true ↔ kids = .nil) := by
  have hr := h.represents
  refine ⟨?_, hr.tree_first, ?_⟩
  · intro i hi
    refine Loc.of_id ?_
    rw [hr.perm.mem_iff]; simpa [Tree.len] using hi
  · intro anc left kids right x hl
    obtain ⟨a, b, c, d, e⟩ := hr.node_get hl
    refine ⟨a, b, c, hr.node_parent hl, hr.node_prev hl, hr.node_next hl, hr.node_first hl, ?_, ?_⟩
    · rw [d]; cases kids <;> simp
    · rw [e]; cases kids <;> simp

example : nodeParent demoTree.nodes 3 = some 0 :=
  ((C17_links_match_place demo_made).2.2 demo_loc).2.2.2.1

theorem lastId_snoc {F : Forest (Lab α)} {j : Nat} (h : F.lastId = some j) :
    ∃ G y k, F = G ++ Forest.single y k ∧ y.id = j := by
  have hF : F ≠ .nil := by rintro rfl; simp at h
  obtain ⟨G, y, k, e⟩ := exists_snoc F hF
  refine ⟨G, y, k, e, ?_⟩
  rw [e, lastId_append] at h
  simpa using h

/-- C17: the navigation links are mutually inverse. -/
theorem C17_links_inverse (h : Made fl t F) {i : Nat} (hi : i < t.len) :
    (∀ j, nodeNext t.nodes i = some j → nodePrev t.nodes j = some i ∧
      nodeParent t.nodes j = nodeParent t.nodes i) ∧
    (∀ j, nodePrev t.nodes i = some j → nodeNext t.nodes j = some i ∧
      nodeParent t.nodes j = nodeParent t.nodes i) ∧
    (∀ cs, Yields (Children.next t.nodes) (nodeChildren t.nodes i) cs →
      nodeFirst t.nodes i = cs.head? ∧ (hasChildren t.nodes i = true ↔ cs ≠ []) ∧
      ∀ j, j ∈ cs ↔ (j < t.len ∧ nodeParent t.nodes j = some i)) ∧
    (∀ rs, Yields (Children.next t.nodes) t.children rs →
      (nodeParent t.nodes i = none ↔ i ∈ rs)) := by
  have hr := h.represents
  obtain ⟨anc, left, x, kids, right, rfl, hl⟩ := (C17_links_match_place h).1 i hi
  have inj : ∀ {y z : Lab α}, y ∈ F.preorder → z ∈ F.preorder → y.id = z.id → y = z := by
    intro y z hy hz e
    exact inj_of_nodup_map hr.nodup hy hz e
  refine ⟨?_, ?_, ?_, ?_⟩
  · intro j hj
    rw [hr.node_next hl] at hj
    cases right with
    | nil => simp at hj
    | cons y k r =>
      simp only [headId_cons, Option.some.injEq] at hj
      subst hj
      have hy := hl.shift (left' := left ++ .single x kids) (y := y) (k' := k) (r' := r)
        (by rw [append_assoc]; rfl)
      rw [hr.node_prev hy, hr.node_parent hy, hr.node_parent hl, lastId_append]
      simp
  · intro j hj
    rw [hr.node_prev hl] at hj
    obtain ⟨G, y, k, rfl, rfl⟩ := lastId_snoc hj
    have hy := hl.shift (left' := G) (y := y) (k' := k) (r' := .cons x kids right)
        (by rw [append_assoc]; rfl)
    rw [hr.node_next hy, hr.node_parent hy, hr.node_parent hl]
    simp
  · intro cs hcs
    have := (hr.node_children hl).det hcs
    subst this
    refine ⟨hr.node_first hl, ?_, ?_⟩
    · rw [(hr.node_get hl).2.2.2.1]; cases kids <;> simp
    · intro j
      constructor
      · intro hj
        obtain ⟨y, hy, rfl⟩ := List.mem_map.1 hj
        have hsplit : ∀ (G : Forest (Lab α)), y ∈ G.tops →
            ∃ l k r, G = l ++ Forest.cons y k r := by
          intro G
          induction G with
          | nil => simp
          | cons z k r _ ih =>
            intro hy
            simp only [tops_cons, List.mem_cons] at hy
            rcases hy with rfl | hy
            · exact ⟨.nil, k, r, rfl⟩
            · obtain ⟨l, k', r', e⟩ := ih hy
              exact ⟨.cons z k l, k', r', by rw [e]; rfl⟩
        obtain ⟨l, k, r, e⟩ := hsplit kids hy
        have hy' : Loc F (x :: anc) l y k r := .child hl e
        refine ⟨?_, hr.node_parent hy'⟩
        have := (hr.perm.mem_iff (a := y.id)).1 (List.mem_map_of_mem hy'.mem)
        simpa [Tree.len] using this
      · rintro ⟨hj, hp⟩
        obtain ⟨anc', left', y, kids', right', rfl, hy⟩ := (C17_links_match_place h).1 j hj
        rw [hr.node_parent hy] at hp
        cases anc' with
        | nil => simp at hp
        | cons p anc' =>
          simp only [List.head?_cons, Option.map_some, Option.some.injEq] at hp
          obtain ⟨l, r, hpl⟩ := hy.parent
          have hpx : p = x := inj hpl.mem hl.mem hp
          subst hpx
          -- same node, same children
          have c1 := hr.node_children hpl
          have c2 := hr.node_children hl
          have := c1.det c2
          rw [← this]; simp
  · intro rs hrs
    have := hr.children.det hrs
    subst this
    rw [hr.node_parent hl]
    cases hl with
    | root e =>
      refine ⟨fun _ => ?_, fun _ => rfl⟩
      rw [e]; simp
    | @child anc l p k r left x kids right hp e =>
      simp only [List.head?_cons, Option.map_some, reduceCtorEq, false_iff]
      intro hmem
      -- `x` would occur both at the top and below `p`
      have htop : ∀ (G : Forest (Lab α)) (i : Nat), i ∈ G.topIds →
          ∃ l y k r, G = l ++ Forest.cons y k r ∧ y.id = i := by
        intro G i
        induction G with
        | nil => simp
        | cons z k r _ ih =>
          intro hy
          simp only [topIds_cons, List.mem_cons] at hy
          rcases hy with rfl | hy
          · exact ⟨.nil, z, k, r, rfl, rfl⟩
          · obtain ⟨l, y, k', r', e, e2⟩ := ih hy
            exact ⟨.cons z k l, y, k', r', by rw [e]; rfl, e2⟩
      obtain ⟨l', y, k', r', e', hid⟩ := htop F x.id hmem
      have hy : Loc F [] l' y k' r' := .root e'
      have h1 := hr.node_parent hy
      have h2 := hr.node_parent (Loc.child hp e)
      rw [hid, h2] at h1
      simp at h1

example : nodePrev demoTree.nodes 4 = some 3 :=
  ((C17_links_inverse demo_made (i := 3) (by decide)).1 4 rfl).1

/-! ## C18 -/

/-- C18, for any underlying iterator that ends: `skip_tokens()` (and repeating `next_node()`) yields
the items that have children; `find` and `rfind` on it are `find` on that sequence. The bound on the
length is the fuel of the modelled loop; every iterator of a tree is within it (next theorem). -/
theorem C18_skip_tokens_filters {σ : Type} (nodes : Slice α) {next back : NextFn σ Nat} {s : σ}
    {l : List Nat} (h : Yields next s l) (hb : l.length ≤ nodes.length) (p : Nat → Bool) :
    Yields (SkipTokens.next nodes next) s (l.filter (hasChildren nodes)) ∧
    (SkipTokens.find nodes next p s).2 =
      Got.ofOption ((l.filter (hasChildren nodes)).find? p) ∧
    (∀ lb, Yields back s lb → lb.length ≤ nodes.length →
      Yields (SkipTokens.nextBack nodes back) s (lb.filter (hasChildren nodes)) ∧
      (SkipTokens.rfind nodes back p s).2 =
        Got.ofOption ((lb.filter (hasChildren nodes)).find? p)) :=
  ⟨h.filter _ _ _ (by omega), find_filter _ _ h _ (by omega),
    fun lb hlb hlen => ⟨hlb.filter _ _ _ (by omega), find_filter _ _ hlb _ (by omega)⟩⟩

example : Yields (SkipTokens.next demoTree.nodes (Walk.next demoTree.nodes)) demoTree.walk [0, 3] :=
  (C18_skip_tokens_filters (back := Walk.next demoTree.nodes) demoTree.nodes
    (C06_walk_once_in_order demo_made).1 (by decide) (fun _ => true)).1

/-- C18 on built trees: `skip_tokens()` on the walk, the children, the siblings and the ancestors
yields exactly the items of the underlying iterator that have children. -/
theorem C18_skip_tokens_on_trees (h : Made fl t F) :
    (∀ l, Yields (Walk.next t.nodes) t.walk l →
      Yields (SkipTokens.next t.nodes (Walk.next t.nodes)) t.walk
        (l.filter (hasChildren t.nodes))) ∧
    (∀ i l, i < t.len → Yields (Walk.next t.nodes) (nodeWalk i) l →
      Yields (SkipTokens.next t.nodes (Walk.next t.nodes)) (nodeWalk i)
        (l.filter (hasChildren t.nodes))) ∧
    (∀ i l, i < t.len → Yields (Children.next t.nodes) (nodeChildren t.nodes i) l →
      Yields (SkipTokens.next t.nodes (Children.next t.nodes)) (nodeChildren t.nodes i)
        (l.filter (hasChildren t.nodes))) ∧
    (∀ i l, i < t.len → Yields (Siblings.next t.nodes) (nodeSiblings i) l →
      Yields (SkipTokens.next t.nodes (Siblings.next t.nodes)) (nodeSiblings i)
        (l.filter (hasChildren t.nodes))) ∧
    (∀ i l, i < t.len → Yields (Ancestors.next t.nodes) (nodeAncestors i) l →
      Yields (SkipTokens.next t.nodes (Ancestors.next t.nodes)) (nodeAncestors i)
        (l.filter (hasChildren t.nodes))) := by
  have hr := h.represents
  have hsz := hr.size
  refine ⟨?_, ?_, ?_, ?_, ?_⟩
  · intro l hl
    have := hr.walk.det hl
    subst this
    exact hl.filter _ _ _ (by have := length_le_of_nodup hr (List.Sublist.refl _); omega)
  · intro i l hi hl
    obtain ⟨anc, left, x, kids, right, rfl, hloc⟩ := (C17_links_match_place h).1 i hi
    have hx : x.id ∈ F.ids := List.mem_map_of_mem hloc.mem
    obtain ⟨pre, post, e⟩ := List.append_of_mem hx
    have hw := hr.walk
    rw [e] at hw
    have := (C09_node_walk_is_suffix h hw).det hl
    subst this
    refine hl.filter _ _ _ ?_
    have : (x.id :: post).length ≤ t.nodes.length :=
      length_le_of_nodup hr (by rw [e]; exact List.sublist_append_right _ _)
    omega
  · intro i l hi hl
    obtain ⟨anc, left, x, kids, right, rfl, hloc⟩ := (C17_links_match_place h).1 i hi
    have := (hr.node_children hloc).det hl
    subst this
    refine hl.filter _ _ _ ?_
    have h1 := hloc.depth_lt
    have h2 := (topIds_sublist kids).length_le
    have h3 := preorder_length kids
    simp only [ids, List.length_map, Forest.size] at h1 h2
    omega
  · intro i l hi hl
    obtain ⟨anc, left, x, kids, right, rfl, hloc⟩ := (C17_links_match_place h).1 i hi
    have := (hr.siblings hloc).det hl
    subst this
    refine hl.filter _ _ _ ?_
    have h1 := hloc.depth_lt
    have h2 := (topIds_sublist right).length_le
    have h3 := preorder_length right
    simp only [ids, List.length_map, Forest.size, List.length_cons] at h1 h2 ⊢
    omega
  · intro i l hi hl
    obtain ⟨anc, left, x, kids, right, rfl, hloc⟩ := (C17_links_match_place h).1 i hi
    have := (hr.ancestors hloc).det hl
    subst this
    refine hl.filter _ _ _ ?_
    have h1 := hloc.depth_lt
    simp only [Forest.size, List.length_cons, List.length_map] at h1 ⊢
    omega

example : Yields (SkipTokens.next demoTree.nodes (Siblings.next demoTree.nodes)) (nodeSiblings 3)
    [3] :=
  (C18_skip_tokens_on_trees demo_made).2.2.2.1 3 _ (by decide) (C15_siblings demo_made demo_loc)

/-! ## C19 -/

/-- An iterator is fused: once it has returned `None`, it returns `None` for ever. -/
def Fused {σ β : Type} (next : NextFn σ β) : Prop :=
  ∀ s s', next s = (s', .none) → Yields next s' [] ∧ ∀ n, ∀ s'', Nat.repeat (fun s => (next s).1) n s' = s'' →
    (next s'').2 = .none

theorem fused_of {σ β : Type} {next : NextFn σ β}
    (h : ∀ s s', next s = (s', .none) → ∃ s'', next s' = (s'', .none)) : Fused next := by
  intro s s' hs
  obtain ⟨s1, h1⟩ := h s s' hs
  refine ⟨.done h1, ?_⟩
  have key : ∀ n, ∃ s'', next (Nat.repeat (fun s => (next s).1) n s') = (s'', .none) := by
    intro n
    induction n with
    | zero => exact ⟨s1, h1⟩
    | succ n ih =>
      obtain ⟨s2, h2⟩ := ih
      obtain ⟨s3, h3⟩ := h _ _ h2
      refine ⟨s3, ?_⟩
      simp only [Nat.repeat, h2]; exact h3
  rintro n _ rfl
  obtain ⟨s2, h2⟩ := key n
  rw [h2]

theorem walkEvents_none {nodes : Slice α} {w w' : WalkEvents}
    (h : WalkEvents.next nodes w = (w', .none)) : w'.node = none := by
  unfold WalkEvents.next at h
  cases hn : w.node with
  | none => rw [hn] at h; simp at h; rw [← h]; exact hn
  | some p =>
    obtain ⟨n, e⟩ := p
    rw [hn] at h
    simp only at h
    cases hx : nodes[n]? with
    | none => rw [hx] at h; simp at h; rw [← h]
    | some l => rw [hx] at h; simp at h

theorem loop_none {nodes : Slice α} (fuel : Nat) {w w' : WalkEvents}
    (h : WithDepths.nextLoop nodes fuel w = (w', .none)) : w'.node = none := by
  induction fuel generalizing w with
  | zero => simp [WithDepths.nextLoop] at h
  | succ fuel ih =>
    simp only [WithDepths.nextLoop] at h
    rcases hn : WalkEvents.next nodes w with ⟨w1, _ | ⟨e, n⟩ | _⟩ <;> rw [hn] at h
    · simp at h; rw [← h]; exact walkEvents_none hn
    · by_cases he : e = .up
      · simp [he] at h; exact ih h
      · simp [he] at h
    · simp at h

theorem inside_none {nodes : Slice α} (fuel : Nat) {w w' : WalkEvents}
    (h : Inside.nextLoop nodes fuel w = (w', .none)) : w'.node = none := by
  induction fuel generalizing w with
  | zero => simp [Inside.nextLoop] at h
  | succ fuel ih =>
    simp only [Inside.nextLoop] at h
    rcases hn : WalkEvents.next nodes w with ⟨w1, _ | ⟨e, n⟩ | _⟩ <;> rw [hn] at h
    · simp at h; rw [← h]; exact walkEvents_none hn
    · by_cases he : e = .up
      · simp [he] at h; exact ih h
      · simp [he] at h
    · simp at h

/-- C19: every iterator stays finished, over arbitrary link tables. -/
theorem C19_fused (nodes : Slice α) :
    Fused (WalkEvents.next nodes) ∧ Fused (Walk.next nodes) ∧ Fused (WithDepths.next nodes) ∧
    Fused (Inside.next nodes) ∧ Fused (Siblings.next nodes) ∧ Fused (Ancestors.next nodes) ∧
    Fused (Children.next nodes) ∧ Fused (Children.nextBack nodes) := by
  refine ⟨fused_of ?_, fused_of ?_, fused_of ?_, fused_of ?_, fused_of ?_, fused_of ?_, fused_of ?_,
    fused_of ?_⟩
  · intro s s' h
    exact ⟨s', next_of_none (walkEvents_none h)⟩
  · intro s s' h
    have h' : WithDepths.nextLoop nodes (nodes.length + 1) s = (s', .none) := by
      rw [Walk.next, walk_of_depths] at h
      rcases hd : WithDepths.nextLoop nodes (nodes.length + 1) s with ⟨s1, _ | x | _⟩ <;>
        rw [hd] at h <;> simp [Got.map] at h ⊢
      exact h
    exact ⟨s', by simp [Walk.next, Walk.nextLoop, next_of_none (loop_none _ h')]⟩
  · intro s s' h
    exact ⟨s', by simp [WithDepths.next, WithDepths.nextLoop, next_of_none (loop_none _ h)]⟩
  · intro s s' h
    exact ⟨s', by simp [Inside.next, Inside.nextLoop, next_of_none (inside_none _ h)]⟩
  · intro s s' h
    cases s with
    | none => simp only [Siblings.next, Prod.mk.injEq] at h; rw [← h.1]; exact ⟨none, rfl⟩
    | some n => simp [Siblings.next] at h
  · intro s s' h
    cases s with
    | none => simp only [Ancestors.next, Prod.mk.injEq] at h; rw [← h.1]; exact ⟨none, rfl⟩
    | some n => simp [Ancestors.next] at h
  · intro s s' h
    have hf : s'.first = none := by
      unfold Children.next at h
      split at h
      · rename_i hn
        simp at h; rw [← h]; exact hn
      · split at h
        · simp at h; rw [← h]
        · simp only at h
          split at h
          · simp at h; rw [← h]
          · split at h <;> simp at h
    exact ⟨s', by simp [Children.next, hf]⟩
  · intro s s' h
    have hf : s'.last = none := by
      unfold Children.nextBack at h
      split at h
      · rename_i hn
        simp at h; rw [← h]; exact hn
      · split at h
        · simp at h; rw [← h]
        · simp only at h
          split at h
          · simp at h; rw [← h]
          · split at h <;> simp at h
    exact ⟨s', by simp [Children.nextBack, hf]⟩

example : ∃ s', Children.next demoTree.nodes ⟨none, some 3⟩ = (s', .none) ∧
    (Children.next demoTree.nodes s').2 = .none :=
  ⟨_, rfl, ((C19_fused demoTree.nodes).2.2.2.2.2.2.1 ⟨none, some 3⟩ _ rfl).2 0 _ rfl⟩

/-- C19: an iterator made by `Default` hands out nothing, from either end, with or without
`skip_tokens` (for any slice: the one it carries is empty and never looked at). -/
theorem C19_default_is_empty (nodes : Slice α) :
    Yields (Children.next nodes) Children.default [] ∧
    Yields (Children.nextBack nodes) Children.default [] ∧
    Yields (Siblings.next nodes) Siblings.default [] ∧
    Yields (Ancestors.next nodes) Ancestors.default [] ∧
    Yields (WalkEvents.next nodes) WalkEvents.default [] ∧
    Yields (Walk.next nodes) WalkEvents.default [] ∧
    Yields (WithDepths.next nodes) WalkEvents.default [] ∧
    Yields (Inside.next nodes) WalkEvents.default [] ∧
    Yields (SkipTokens.next nodes (Children.next nodes)) Children.default [] ∧
    Yields (SkipTokens.nextBack nodes (Children.nextBack nodes)) Children.default [] ∧
    Yields (SkipTokens.next nodes (Siblings.next nodes)) Siblings.default [] ∧
    Yields (SkipTokens.next nodes (Ancestors.next nodes)) Ancestors.default [] ∧
    Yields (SkipTokens.next nodes (Walk.next nodes)) WalkEvents.default [] :=
  ⟨.done rfl, .done rfl, .done rfl, .done rfl, .done rfl, .done rfl, .done rfl, .done rfl, .done rfl,
    .done rfl, .done rfl, .done rfl, .done rfl⟩

example : Yields (SkipTokens.next demoTree.nodes (Children.next demoTree.nodes)) Children.default []
    ∧ ¬ Yields (SkipTokens.next demoTree.nodes (Children.next demoTree.nodes)) demoTree.children [] :=
  ⟨(C19_default_is_empty demoTree.nodes).2.2.2.2.2.2.2.2.1, fun h => by
    cases h with
    | done h => have h := congrArg Prod.snd h; exact absurd (show _ = Got.none from h) (by decide)⟩

/-! ## C20 -/

/-- C20: `find_preceding(p)` climbs from the node through its ancestors to the first one whose
previous sibling satisfies `p`, and descends from that sibling through `last()` while it satisfies
`p`. It always ends, returns `None` iff no such ancestor exists, and the result satisfies `p`. -/
theorem C20_find_preceding (h : Made fl t F) (p : Nat → Bool) {i : Nat} {path : List Nat}
    (hi : i < t.len) (hp : Yields (Ancestors.next t.nodes) (nodeAncestors i) path) :
    (findPreceding t.nodes p i = .none ∧
      ∀ a ∈ path, ∀ b, nodePrev t.nodes a = some b → p b = false) ∨
    (∃ m below a above b, findPreceding t.nodes p i = .some m ∧ p m = true ∧
      path = below ++ a :: above ∧
      (∀ c ∈ below, ∀ b, nodePrev t.nodes c = some b → p b = false) ∧
      nodePrev t.nodes a = some b ∧ p b = true ∧ Descends (nodeLast t.nodes) p b m) := by
  have hr := h.represents
  obtain ⟨anc, left, x, kids, right, rfl, hl⟩ := (C17_links_match_place h).1 i hi
  have := (hr.ancestors hl).det hp
  subst this
  have hsz := hr.size
  have hd := hl.depth_lt
  simp only [Forest.size] at hd
  rcases hr.ascend p anc (fuel := t.nodes.length + 1) hl (by omega) with
    ⟨h1, h2⟩ | ⟨pre, a, post, b, h1, h2, h3, h4, h5⟩
  · left
    exact ⟨by simp [findPreceding, h1], h2⟩
  · right
    -- `b` is a node of the tree
    have hb : b ∈ F.ids := by
      have ha : a ∈ F.ids := by
        have : a ∈ x.id :: anc.map (·.id) := by rw [h1]; simp
        rcases List.mem_cons.1 this with rfl | this
        · exact List.mem_map_of_mem hl.mem
        · obtain ⟨y, hy, rfl⟩ := List.mem_map.1 this
          exact List.mem_map_of_mem (hl.anc_mem y hy)
      obtain ⟨anc', l', y, k', r', rfl, hy⟩ := Loc.of_id ha
      rw [hr.node_prev hy] at h3
      obtain ⟨z, hz, rfl⟩ := List.mem_map.1 (lastId_mem (F := l') h3)
      refine List.mem_map_of_mem (hy.sibs_sub ?_)
      rw [preorder_append]; exact List.mem_append_left _ hz
    obtain ⟨anc', l', y, k', r', rfl, hy⟩ := Loc.of_id hb
    have hd' := hy.depth_lt
    simp only [Forest.size] at hd'
    obtain ⟨m, h6, h7⟩ := hr.descend p (t.nodes.length + 1) hy (by omega)
    exact ⟨m, pre, a, post, y.id, by simp [findPreceding, h5, h6], h7.pred h4, h1, h2, h3, h4, h7⟩

example : findPreceding demoTree.nodes (fun _ => true) 4 = .some 2 := by
  rcases C20_find_preceding demo_made (fun _ => true) (i := 4) (path := [4, 0]) (by decide)
    (.item (s' := some 0) rfl (.item (s' := none) rfl (.done (s' := none) rfl))) with
    ⟨h1, h2⟩ | _
  · exact absurd (h2 4 (by simp) 3 rfl) (by simp)
  · rfl

end Syntree
