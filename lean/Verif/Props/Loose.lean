import Verif.Proof.LooseSpec
import Verif.Proof.Made
import Verif.Props.History

/-!
# C73: what `close_at` does with any checkpoint of its builder

`Loose` (`Spec/Loose.lean`) says what every call does, also with a checkpoint that an earlier
`close_at` has swallowed; `BuiltFreely fl ops t F`: after the calls `ops` on a new builder `build()`
returns `t`, and `Loose` says that `F` has been built.
-/

namespace Syntree

variable {α : Type} {fl : Flavor} {ops : List (Op α)} {t : Tree α} {F : Forest (Lab α)}

open Forest

/-! A witness: checkpoint 0 before token 1 and checkpoint 1 before token 2 are taken inside of a node;
the first is used, which swallows the second, and then the second is used. -/

def looseOps : List (Op Nat) :=
  [.open 9, .checkpoint, .token 1 1, .checkpoint, .token 2 1, .token 3 1, .closeAt 0 4, .closeAt 1 5,
    .close, .token 6 1]

def looseForest : Forest (Lab Nat) :=
  .cons ⟨0, 9, ⟨0, 3⟩⟩
    (.single ⟨4, 4, ⟨0, 3⟩⟩
      (.cons ⟨1, 1, ⟨0, 1⟩⟩ .nil
        (.single ⟨5, 5, ⟨1, 3⟩⟩ (.cons ⟨2, 2, ⟨1, 2⟩⟩ .nil (.single ⟨3, 3, ⟨2, 3⟩⟩ .nil)))))
    (.single ⟨6, 6, ⟨3, 4⟩⟩ .nil)

def looseTree : Tree Nat := (Sys.init.run Flavor.default looseOps).1.b.tree

theorem loose_built : BuiltFreely Flavor.default looseOps looseTree looseForest :=
  ⟨_, _, rfl, rfl, rfl, rfl⟩

/-- The smaller specification does not cover it. -/
example : Nest.init.run Flavor.default looseOps = none := rfl

/-! ## The calls and their results -/

/-- C73: in every history that `Loose` covers, whatever checkpoint of the builder is used, the calls
return what `Loose` says. -/
theorem C73_results {n : Loose α} {os : List (Except Err Out)}
    (h : Loose.init.run fl ops = some (n, os)) : (Sys.init.run fl ops).2 = os := by
  obtain ⟨s, e, _⟩ := RelL.init.run fl ops h
  rw [e]

/-- C73: after such a history `build()` fails if a node is open, and otherwise returns a tree. -/
theorem C73_builds {n : Loose α} {os : List (Except Err Out)}
    (h : Loose.init.run fl ops = some (n, os)) :
    (n.base.stack ≠ [] → (Sys.init.run fl ops).1.b.build = .error .buildError) ∧
    (n.base.stack = [] → ∃ t, BuiltFreely fl ops t n.base.cur) := by
  obtain ⟨s, e, r⟩ := RelL.init.run fl ops h
  have hp := r.base.parent
  constructor
  · intro hs
    rw [e]
    cases hst : n.base.stack with
    | nil => exact absurd hst hs
    | cons q st =>
      simp only [Nest.frame, hst, List.head?_cons, Option.map_some] at hp
      simp [Builder.build, hp]
  · intro hs
    refine ⟨s.b.tree, n, os, h, hs, rfl, ?_⟩
    simp only [Nest.frame, hs, List.head?_nil, Option.map_none] at hp
    rw [e]
    simp [Builder.build, hp]

example : (Sys.init.run Flavor.default looseOps).2 = [.ok (.id 0), .ok (.handle 0), .ok (.id 1),
    .ok (.handle 1), .ok (.id 2), .ok (.id 3), .ok (.id 4), .ok (.id 5), .ok .unit, .ok (.id 6)] :=
  C73_results (n := ⟨⟨looseForest, [], 4, 7, 4, []⟩,
    [⟨(1, some 0), 4, some 0⟩, ⟨(2, some 0), 5, some 4⟩], true⟩) rfl

theorem BuiltFreely.stores (h : BuiltFreely fl ops t F) : Stores t F := by
  obtain ⟨n, os, h1, h2, rfl, h4⟩ := h
  obtain ⟨s, e, r⟩ := RelL.init.run fl ops h1
  have := r.stores h2
  rw [e] at h4
  simp only [Builder.build] at h4
  split at h4
  · simp at h4
  · simp only [Except.ok.injEq] at h4
    rw [← h4]; exact this

/-- C73: every history of the smaller specification `Nest` is covered, and the same nested list has
been built. -/
theorem C73_covers_nest (h : Built fl ops t F) : BuiltFreely fl ops t F := by
  obtain ⟨n, os, h1, h2, h3⟩ := h
  obtain ⟨m, g1, g2, _⟩ := Loose.run_of_nest fl (Rel.init false) RelL.init rfl rfl ops h1
  unfold Nest.built at h2
  cases hs : n.stack with
  | cons q st => rw [hs] at h2; simp at h2
  | nil =>
    rw [hs] at h2
    simp only [List.isEmpty_nil, if_true, Except.ok.injEq] at h2
    exact ⟨m, os, g1, by rw [g2]; exact hs, by rw [g2]; exact h2, h3⟩

/-! ## The tree -/

/-- C73: a walk over the tree, its events, and a walk with depths, values and spans, are those of the
nested list that `Loose` says has been built. -/
theorem C73_walks (h : BuiltFreely fl ops t F) :
    Yields (WalkEvents.next t.nodes) t.walk ((F.events .next).map fun p => (p.1, p.2.id)) ∧
    Yields (Walk.next t.nodes) t.walk (F.preorder.map (·.id)) ∧ t.listing = some F.listing ∧
    t.firstNode = (F.tops.map (·.id)).head? :=
  h.stores.walks

/-- C73: every node has the value, the span and the neighbours it has in the nested list; `siblings()`,
`ancestors()`, `walk()`, `walk_from()` and `inside()` of a node are those of the nested list. -/
theorem C73_node (h : BuiltFreely fl ops t F) {anc : List (Lab α)}
    {left kids right : Forest (Lab α)} {x : Lab α} (hl : Loc F anc left x kids right) :
    (nodeValue t.nodes x.id = some x.data ∧ nodeSpan t.nodes x.id = some x.span) ∧
    (nodeParent t.nodes x.id = anc.head?.map (·.id) ∧
      nodePrev t.nodes x.id = (left.tops.map (·.id)).getLast? ∧
      nodeNext t.nodes x.id = (right.tops.map (·.id)).head? ∧
      nodeFirst t.nodes x.id = (kids.tops.map (·.id)).head?) ∧
    Yields (Siblings.next t.nodes) (nodeSiblings x.id) (x.id :: right.tops.map (·.id)) ∧
    Yields (Ancestors.next t.nodes) (nodeAncestors x.id) (x.id :: anc.map (·.id)) ∧
    Yields (Inside.next t.nodes) (nodeWalk x.id) (x.id :: kids.preorder.map (·.id)) ∧
    ∀ {pre post : List Nat},
      F.preorder.map (·.id) = pre ++ (x.id :: kids.preorder.map (·.id)) ++ post →
      Yields (Walk.next t.nodes) (nodeWalk x.id) (x.id :: kids.preorder.map (·.id) ++ post) ∧
      Yields (Walk.next t.nodes) (nodeWalkFrom x.id) post :=
  h.stores.node hl

/-- C73: `children()` of the tree and of every node are those of the nested list. What `last()`
returns is a node on the right edge, and nothing only if there are no children. -/
theorem C73_children (h : BuiltFreely fl ops t F) :
    (Yields (Children.next t.nodes) t.children (F.tops.map (·.id)) ∧
      (t.lastNode = none ↔ F = .nil) ∧ ∀ i, t.lastNode = some i → i ∈ F.spine.map (·.id)) ∧
    ∀ {anc : List (Lab α)} {left kids right : Forest (Lab α)} {x : Lab α},
      Loc F anc left x kids right →
      Yields (Children.next t.nodes) (nodeChildren t.nodes x.id) (kids.tops.map (·.id)) ∧
      (nodeLast t.nodes x.id = none ↔ kids = .nil) ∧
      ∀ i, nodeLast t.nodes x.id = some i → i ∈ kids.spine.map (·.id) :=
  h.stores.children

example : Yields (Walk.next looseTree.nodes) looseTree.walk [0, 4, 1, 5, 2, 3, 6] :=
  (C73_walks loose_built).2.1

theorem loose_loc : Loc looseForest [⟨4, 4, ⟨0, 3⟩⟩, ⟨0, 9, ⟨0, 3⟩⟩]
    (.single ⟨1, 1, ⟨0, 1⟩⟩ .nil) ⟨5, 5, ⟨1, 3⟩⟩
    (.cons ⟨2, 2, ⟨1, 2⟩⟩ .nil (.single ⟨3, 3, ⟨2, 3⟩⟩ .nil)) .nil :=
  .child (.child (.root (left := .nil) rfl) (left := .nil) rfl) rfl

example : nodeParent looseTree.nodes 5 = some 4 ∧
    Yields (Children.next looseTree.nodes) (nodeChildren looseTree.nodes 5) [2, 3] :=
  ⟨(C73_node loose_built loose_loc).2.1.1, ((C73_children loose_built).2 loose_loc).1⟩

/-! ## What a use of a checkpoint does -/

/-- C73: let a checkpoint of the root level, with no node open, stand for the node `x` (anywhere in
what has been built), and let there be a pointer left. Then `close_at` succeeds: a new node takes the
place of `x` and of the siblings after it, which become its children; the order of all the other
nodes, their values and spans stay, also what is on the levels above. -/
theorem C73_close_at_wraps_in_place {n : Loose α} {os : List (Except Err Out)}
    (h : Loose.init.run fl ops = some (n, os)) (hs : n.base.stack = [])
    {k : Nat} {p : Place} (hp : n.places[k]? = some p) (hv : p.level = none)
    (hc : n.base.count < 2 ^ fl.width - 1) {op : Op α} {d : α} {e : Option Span}
    (hu : UsesAt op k d e) {anc : List (Lab α)} {left kids right : Forest (Lab α)} {x : Lab α}
    (hl : Loc n.base.cur anc left x kids right) (hx : x.id = p.node) :
    ∃ (t : Tree α) (G : Forest (Lab α)) (new : Lab α), BuiltFreely fl (ops ++ [op]) t G ∧
      ((Sys.init.run fl ops).1.step fl op).2 = .ok (.id new.id) ∧
      new = ⟨n.base.count, d, e.getD (Nest.stretch (.cons x kids right))⟩ ∧
      Loc G anc left new (.cons x kids right) .nil ∧
      ∃ pre post, n.base.cur.preorder = pre ++ (Forest.cons x kids right).preorder ++ post ∧
        G.preorder = pre ++ new :: (Forest.cons x kids right).preorder ++ post := by
  obtain ⟨s, es, r⟩ := RelL.init.run fl ops h
  have hid : x.id ∈ n.base.cur.ids := List.mem_map_of_mem hl.mem
  have nd : n.base.cur.ids.Nodup := (r.stores hs).nodup
  have hf : n.base.frame = none := by simp [Nest.frame, hs]
  have hne : p.node ≠ n.base.count := by
    have := r.base.tree.lt (List.mem_append_left _ hid)
    omega
  obtain ⟨f1, _⟩ := hl.wrapHere (new := ⟨0, x.data, x.span⟩) nd
  have hstep : n.step fl op = some (n.wrapAt p d e, .ok (.id n.base.count)) := by
    have : n.closeAt fl k d e = some (n.wrapAt p d e, .ok (.id n.base.count)) := by
      unfold Loose.closeAt
      rw [hp]
      simp only
      rw [if_neg (by rw [hv, hf]; simp), if_neg (not_full_iff.2 hc), if_neg hne]
    cases hu <;> exact this
  have hrun : ∀ (m : Loose α) (ops' : List (Op α)) {n' : Loose α} {os' : List (Except Err Out)},
      m.run fl ops' = some (n', os') → n'.step fl op = some (n.wrapAt p d e, .ok (.id n.base.count)) →
      m.run fl (ops' ++ [op]) = some (n.wrapAt p d e, os' ++ [.ok (.id n.base.count)]) := by
    intro m ops'
    induction ops' generalizing m with
    | nil =>
      intro n' os' h1 h2
      simp only [Loose.run, Option.some.injEq] at h1
      obtain ⟨rfl, rfl⟩ := Prod.mk.inj h1
      simp only [List.nil_append, Loose.run, h2]
    | cons o ops' ih =>
      intro n' os' h1 h2
      simp only [Loose.run] at h1
      cases h3 : m.step fl o with
      | none => rw [h3] at h1; simp at h1
      | some q =>
        obtain ⟨m1, o1⟩ := q
        rw [h3] at h1
        simp only at h1
        cases h4 : m1.run fl ops' with
        | none => rw [h4] at h1; simp at h1
        | some q2 =>
          obtain ⟨m2, os2⟩ := q2
          rw [h4] at h1
          simp only [Option.some.injEq] at h1
          obtain ⟨rfl, rfl⟩ := Prod.mk.inj h1
          simp only [List.cons_append, Loose.run, h3, ih m1 h4 h2]
  have hrun' := hrun _ _ h hstep
  obtain ⟨t, ht⟩ := (C73_builds hrun').2 hs
  obtain ⟨s', es', _⟩ := r.step fl op hstep
  refine ⟨t, _, ⟨n.base.count, d, e.getD (Nest.stretch (.cons x kids right))⟩, ht, ?_, rfl, ?_, ?_⟩
  · rw [es, es']
  · have := (hl.wrapHere (new := ⟨n.base.count, d, e.getD (Nest.stretch (.cons x kids right))⟩) nd).2
    rw [← f1] at this ⊢
    rw [hx] at this ⊢
    exact this
  · have := preorder_wrapFrom
      (new := ⟨n.base.count, d, e.getD (Nest.stretch (.cons x kids right))⟩) hid
    rw [f1, ← f1, hx] at this
    rw [← f1, hx]
    exact this

/-- The swallowed checkpoint: token 2, before which it was taken and which is by now a child of the node
made by the first `close_at`, is wrapped there. -/
example : ∃ (t : Tree Nat) (G : Forest (Lab Nat)) (new : Lab Nat),
    BuiltFreely Flavor.default ([.checkpoint, .token 1 1, .checkpoint, .token 2 1, .closeAt 0 4] ++
      [.closeAt 1 5]) t G ∧ new.id = 3 ∧ new.span = ⟨1, 2⟩ ∧
    Loc G [⟨2, 4, ⟨0, 2⟩⟩] (.single ⟨0, 1, ⟨0, 1⟩⟩ .nil) new (.single ⟨1, 2, ⟨1, 2⟩⟩ .nil) .nil := by
  obtain ⟨t, G, new, h1, _, rfl, h3, _⟩ := C73_close_at_wraps_in_place (fl := Flavor.default)
    (ops := [Op.checkpoint, .token 1 1, .checkpoint, .token 2 1, .closeAt 0 4])
    (n := ⟨⟨.single ⟨2, 4, ⟨0, 2⟩⟩ (.cons ⟨0, 1, ⟨0, 1⟩⟩ .nil (.single ⟨1, 2, ⟨1, 2⟩⟩ .nil)), [], 2, 3, 2, []⟩,
      [⟨(0, none), 2, none⟩, ⟨(1, none), 1, none⟩], true⟩) rfl rfl (k := 1) rfl rfl (by decide)
    (.closeAt 1 5) (.child (.root (left := .nil) rfl) (left := .single ⟨0, 1, ⟨0, 1⟩⟩ .nil) rfl) rfl
  exact ⟨t, G, _, h1, rfl, rfl, h3⟩

end Syntree
