import Verif.Proof.Final
import Verif.Proof.Subtree
import Verif.Props.Traverse

/-!
# Properties C70, C71: what later calls cannot change

A program (`List (WOp α)`) makes and clones any number of builders, calls their methods in any order
and may use the checkpoints of one builder with another.
-/

namespace Syntree

variable {α : Type}

theorem World.run_app (p q : List (WOp α)) (w : World α) :
    (w.run (p ++ q)).1 = ((w.run p).1.run q).1 := by
  induction p generalizing w with
  | nil => rfl
  | cons op p ih => simp only [List.cons_append, World.run]; exact ih _

/-- C70: the value given to a call that has made a node is the value of that node ever after,
whatever the program does. -/
theorem C70_values_are_final (pre post : List (WOp α)) {i n : Nat} {fl : Flavor} {b : Builder α}
    {op : Op α} {d : α} (hb : (World.init.run pre).1.builders[i]? = some (fl, b))
    (hd : op.data = some d)
    (hr : ((World.init.run pre).1.step (.call i op)).2 = some (.ok (.id n))) :
    ∃ b', (World.init.run (pre ++ .call i op :: post)).1.builders[i]? = some (fl, b') ∧
      nodeValue b'.tree.nodes n = some d := by
  obtain ⟨sts, hg, _⟩ := (GoodW.init (α := α)).run pre
  obtain ⟨st, _, hgood⟩ := hg.get hb
  have hi := (List.getElem?_eq_some_iff.1 hb).1
  rw [World.run_app]
  generalize (World.init.run pre).1 = w at *
  simp only [World.step, hb, Option.some.injEq] at hr
  obtain ⟨⟨l, h1, h2⟩, _⟩ := step_made hgood.wf hd hr
  obtain ⟨b', h3, h4⟩ := World.run_keeps post (fl := fl) (i := i)
    (w := (w.step (.call i op)).1) (b := (Sys.step fl ⟨b, w.cells, w.handles⟩ op).1.b)
    (by simp only [World.step, hb]; rw [List.getElem?_set]; simp [hi])
  obtain ⟨l', e1, e2, _⟩ := h4 n l h1
  exact ⟨b', h3, by simp only [nodeValue, e1, Option.map_some, e2, h2]⟩

/-- C70: a token keeps the place it got when it was added (from the cursor on, as long as its length;
or the span given), and never gets a child, whatever the program does. -/
theorem C70_tokens_are_final (pre post : List (WOp α)) {i n : Nat} {fl : Flavor} {b : Builder α}
    {op : Op α} (hb : (World.init.run pre).1.builders[i]? = some (fl, b))
    (ht : op.isToken = true)
    (hr : ((World.init.run pre).1.step (.call i op)).2 = some (.ok (.id n))) :
    ∃ b', (World.init.run (pre ++ .call i op :: post)).1.builders[i]? = some (fl, b') ∧
      nodeSpan b'.tree.nodes n = some (op.tokenSpan fl b.cursor) ∧
      hasChildren b'.tree.nodes n = false := by
  obtain ⟨sts, hg, _⟩ := (GoodW.init (α := α)).run pre
  obtain ⟨st, _, hgood⟩ := hg.get hb
  have hi := (List.getElem?_eq_some_iff.1 hb).1
  obtain ⟨d, hd⟩ : ∃ d, op.data = some d := by
    cases op <;> simp [Op.isToken] at ht <;> exact ⟨_, rfl⟩
  rw [World.run_app]
  generalize (World.init.run pre).1 = w at *
  simp only [World.step, hb, Option.some.injEq] at hr
  obtain ⟨h0, l, h1, _, h2, h2'⟩ := (step_made hgood.wf hd hr).2 ht
  obtain ⟨b', h3, h4⟩ := World.run_keeps post (fl := fl) (i := i)
    (w := (w.step (.call i op)).1) (b := (Sys.step fl ⟨b, w.cells, w.handles⟩ op).1.b)
    (by simp only [World.step, hb]; rw [List.getElem?_set]; simp [hi])
  obtain ⟨l', e1, e2, e3⟩ := h4 n l h1
  obtain ⟨e4, e5⟩ := e3 h0
  refine ⟨b', h3, ?_, ?_⟩
  · simp only [nodeSpan, e1, Option.map_some, e4, h2]
  · simp only [hasChildren, e1, e5, h2']; rfl

/-- C70: a clone made later has the node with the same value, and so it remains. -/
theorem C70_values_in_clones (pre mid post : List (WOp α)) {i n : Nat} {fl : Flavor} {b : Builder α}
    {op : Op α} {d : α} (hb : (World.init.run pre).1.builders[i]? = some (fl, b))
    (hd : op.data = some d)
    (hr : ((World.init.run pre).1.step (.call i op)).2 = some (.ok (.id n))) :
    ∃ b', (World.init.run (pre ++ .call i op :: (mid ++ .clone i :: post))).1.builders[
        (World.init.run (pre ++ .call i op :: mid)).1.builders.length]? = some (fl, b') ∧
      nodeValue b'.tree.nodes n = some d := by
  obtain ⟨b1, h1, h2⟩ := C70_values_are_final pre mid hb hd hr
  have e : pre ++ .call i op :: (mid ++ .clone i :: post) =
      (pre ++ .call i op :: mid) ++ .clone i :: post := by simp
  rw [e, World.run_app (pre ++ .call i op :: mid)]
  generalize (World.init.run (pre ++ .call i op :: mid)).1 = w at *
  obtain ⟨b', h3, h4⟩ := World.run_keeps post (fl := fl) (i := w.builders.length)
    (w := (w.step (.clone i)).1) (b := b1.clone) (by simp only [World.step, h1]; simp)
  simp only [nodeValue, Option.map_eq_some_iff] at h2
  obtain ⟨l, h5, h6⟩ := h2
  obtain ⟨l', e1, e2, _⟩ := h4 n l h5
  exact ⟨b', h3, by simp only [nodeValue, e1, Option.map_some, e2, h6]⟩

/-- A token, then a checkpoint of another builder is used, and a checkpoint that has been swallowed. -/
example : ∃ b', (World.init.run (α := Nat) ([.new Flavor.default, .new Flavor.default,
      .call 1 .checkpoint, .call 0 (.token 7 2), .call 0 .checkpoint] ++ .call 0 (.token 8 3) ::
      [.call 0 .checkpoint, .call 0 (.token 9 1), .call 0 (.closeAt 0 5), .call 0 (.closeAt 1 6),
       .call 0 (.closeAt 2 4), .call 0 (.tokenWith 3 ⟨0, 100⟩), .call 0 .close])).1.builders[0]? =
        some (Flavor.default, b') ∧ nodeSpan b'.tree.nodes 1 = some ⟨2, 5⟩ ∧
      hasChildren b'.tree.nodes 1 = false :=
  C70_tokens_are_final (op := .token 8 3) (i := 0) (n := 1) (fl := Flavor.default) [.new Flavor.default,
    .new Flavor.default, .call 1 .checkpoint, .call 0 (.token 7 2), .call 0 .checkpoint]
    [.call 0 .checkpoint, .call 0 (.token 9 1), .call 0 (.closeAt 0 5), .call 0 (.closeAt 1 6),
     .call 0 (.closeAt 2 4), .call 0 (.tokenWith 3 ⟨0, 100⟩), .call 0 .close] rfl rfl rfl

example : ∃ b', (World.init.run (α := Nat) ([.new Flavor.default] ++ .call 0 (.open 8) ::
      [.call 0 .checkpoint, .call 0 (.token 9 1), .call 0 (.closeAt 0 5)])).1.builders[0]? =
        some (Flavor.default, b') ∧ nodeValue b'.tree.nodes 0 = some 8 :=
  C70_values_are_final (op := .open 8) (i := 0) (n := 0) (fl := Flavor.default) [.new Flavor.default]
    [.call 0 .checkpoint, .call 0 (.token 9 1), .call 0 (.closeAt 0 5)] rfl rfl rfl

example : ∃ b', (World.init.run (α := Nat) ([.new Flavor.default] ++ .call 0 (.open 8) ::
      ([.call 0 (.token 9 1)] ++ .clone 0 :: [.call 1 (.token 3 1), .call 0 .close]))).1.builders[
        (World.init.run (α := Nat) ([.new Flavor.default] ++ .call 0 (.open 8) ::
          [.call 0 (.token 9 1)])).1.builders.length]? =
        some (Flavor.default, b') ∧ nodeValue b'.tree.nodes 0 = some 8 :=
  C70_values_in_clones (op := .open 8) (i := 0) (n := 0) (fl := Flavor.default) [.new Flavor.default]
    [.call 0 (.token 9 1)] [.call 1 (.token 3 1), .call 0 .close] rfl rfl rfl

/-! ## C71 -/

open Forest

variable {fl : Flavor}

/-- C71: let `F1` be the nested list one gets by closing the open nodes after `pre`, and `F2` the one
one gets by going on with any calls `post` instead. A node made by `pre` that is not open after `pre`
(judged by the results of the `open` and `close` calls) is in `F2` with the same value, the same span
and the same nested list of children. -/
theorem C71_subtrees_are_final {pre post : List (Op α)} {m : Nat} {t1 t2 : Tree α}
    {F1 F2 : Forest (Lab α)} (h1 : Built fl (pre ++ List.replicate m .close) t1 F1)
    (h2 : Built fl (pre ++ post) t2 F2) {anc : List (Lab α)} {left kids right : Forest (Lab α)}
    {x : Lab α} (hl : Loc F1 anc left x kids right)
    (hx : x.id ∉ openIds [] pre (Sys.init.run fl pre).2) :
    ∃ anc' left' right', Loc F2 anc' left' x kids right' :=
  has_loc (subtree_final h1 h2 (loc_has hl) hx)

/-- C71 seen through the API, without nested lists: such a node has the same `value()`, `span()`,
`children()` and `walk().inside()` in both trees. -/
theorem C71_seen {pre post : List (Op α)} {m : Nat} {t1 t2 : Tree α}
    {F1 F2 : Forest (Lab α)} (h1 : Built fl (pre ++ List.replicate m .close) t1 F1)
    (h2 : Built fl (pre ++ post) t2 F2) {i : Nat} (hi : i < t1.len)
    (hx : i ∉ openIds [] pre (Sys.init.run fl pre).2) :
    t2.get i = t1.get i ∧ t1.get i = some i ∧
    nodeValue t2.nodes i = nodeValue t1.nodes i ∧ nodeSpan t2.nodes i = nodeSpan t1.nodes i ∧
    ∃ cs ds, Yields (Children.next t1.nodes) (nodeChildren t1.nodes i) cs ∧
      Yields (Children.next t2.nodes) (nodeChildren t2.nodes i) cs ∧
      Yields (Inside.next t1.nodes) (nodeWalk i) ds ∧ Yields (Inside.next t2.nodes) (nodeWalk i) ds := by
  have hr1 := h1.represents
  have hr2 := h2.represents
  have hmem : i ∈ F1.ids := by
    rw [hr1.perm.mem_iff]; simpa [Tree.len] using hi
  obtain ⟨anc, left, x, kids, right, rfl, hl⟩ := Loc.of_id hmem
  obtain ⟨anc', left', right', hl'⟩ := C71_subtrees_are_final h1 h2 hl hx
  obtain ⟨a1, a2, a3, _⟩ := hr1.node_get hl
  obtain ⟨b1, b2, b3, _⟩ := hr2.node_get hl'
  exact ⟨by rw [a1, b1], a1, by rw [a2, b2], by rw [a3, b3], kids.topIds, _,
    hr1.node_children hl, hr2.node_children hl', (hr1.inside hl).1, (hr2.inside hl').1⟩

/-- open 1; checkpoint; open 4; token 2; close, and then either close everything, or go on with
another token, wrap both, and close. Node 1 (the one with the value 4) is the same in both trees. -/
example : nodeSpan (Sys.init.run Flavor.default ([.open 1, .checkpoint, .open 4, .token 2 3, .close] ++
      [.token 6 1, .closeAt 0 7, .close])).1.b.tree.nodes 1 = some ⟨0, 3⟩ ∧
    Yields (Children.next (Sys.init.run Flavor.default ([.open 1, .checkpoint, .open 4, .token 2 3,
      .close] ++ [.token 6 1, .closeAt 0 7, .close])).1.b.tree.nodes) (nodeChildren
      (Sys.init.run Flavor.default ([.open 1, .checkpoint, .open 4, .token 2 3,
      .close] ++ [.token 6 1, .closeAt 0 7, .close])).1.b.tree.nodes 1) [2] := by
  have h := C71_seen (fl := Flavor.default) (α := Nat) (i := 1) (m := 1)
    (pre := [.open 1, .checkpoint, .open 4, .token 2 3, .close])
    (post := [.token 6 1, .closeAt 0 7, .close]) ⟨_, _, rfl, rfl, rfl⟩ ⟨_, _, rfl, rfl, rfl⟩
    (by decide) (by decide)
  obtain ⟨_, _, _, h4, cs, ds, h5, h6, _, _⟩ := h
  have e : cs = [2] := h5.det (.item rfl (.done rfl))
  rw [e] at h6
  exact ⟨h4, h6⟩

end Syntree
