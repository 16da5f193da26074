import Verif.Proof.Storeless
import Verif.Proof.Storeless2

/-!
# C90: node storage that keeps nothing (`EmptyVec`; the crate without its feature `alloc`)
-/

namespace Syntree

variable {α : Type} {fl : Flavor}

/-- C90, reference: with storage that keeps what is pushed, these are the calls and literals of all
the other properties. -/
theorem C90_with_alloc (fl : Flavor) (ops : List (Op α)) (lit : Lit α) :
    Sys.init.runK true fl ops = Sys.init.run fl ops ∧ lit.treeK true fl = lit.tree fl := by
  refine ⟨runK_true ops _, ?_⟩
  simp only [Lit.treeK, Lit.tree, tryRunK_true]
  cases Sys.tryRun fl Sys.init lit.calls <;> rfl

example : Sys.init.runK true Flavor.default [.open 1, .token 2 3, .close] =
    Sys.init.run Flavor.default [.open 1, .token 2 3, .close] :=
  (C90_with_alloc Flavor.default [.open 1, .token 2 3, .close] .nil).1

/-- C90: what the calls of any history return, and the cursor. All that such a builder remembers is
whether a node is open, the cursor, the end of the text, and whether a node was open when each
checkpoint was taken (`Husk`). -/
theorem C90_results (hw : 0 < fl.width) (ops : List (Op α)) :
    (Sys.init.runK false fl ops).2 = (Husk.new.run fl.ik ops).2 ∧
    (Sys.init.runK false fl ops).1.b.cursor = (Husk.new.run fl.ik ops).1.cursor := by
  obtain ⟨h1, h2⟩ := HuskRep.init.run hw ops
  exact ⟨h2, h1.cursor⟩

/-- A node in a node, two tokens, and one `close` too many. -/
example : (Sys.init.runK false Flavor.default
    [.open 1, .token 2 3, .open 4, .token 5 1, .close, .close]).2 =
    [.ok (.id 0), .ok (.id 0), .ok (.id 0), .ok (.id 0), .error (.missingNode 0),
      .error .closeError] := by
  rw [(C90_results (by decide) _).1]; rfl

/-- C90: `close` never succeeds. If a node is open it reports that node 0 is missing, and no node
is open afterwards; otherwise it reports `CloseError`. So a history in which nothing fails has no
`close` in it. -/
theorem C90_close_fails (hw : 0 < fl.width) (pre post : List (Op α)) :
    ∃ e, (Sys.init.runK false fl (pre ++ .close :: post)).2[pre.length]? = some (.error e) ∧
      (e = .missingNode 0 ∨ e = .closeError) ∧
      (e = .missingNode 0 ↔ (Sys.init.runK false fl pre).1.b.build = .error .buildError) ∧
      (Sys.init.runK false fl (pre ++ [.close])).1.b.parent = none := by
  obtain ⟨h1, h2⟩ := HuskRep.init.run hw (α := α) pre
  obtain ⟨h3, h4⟩ := h1.step hw .close
  obtain ⟨e, e1, e2, e3⟩ := Husk.step_close (α := α) fl.ik (Husk.new.run fl.ik pre).1
  refine ⟨e, ?_, e2, e3.trans ?_, ?_⟩
  · rw [runK_append]
    simp only [Sys.runK]
    rw [List.getElem?_append_right (by rw [runK_length]; exact Nat.le_refl _), runK_length,
      Nat.sub_self, List.getElem?_cons_zero, h4, e1]
  · simp only [Builder.build, h1.parent]
    cases (Husk.new.run fl.ik pre).1.isOpen <;> simp
  · rw [runK_append]
    simp only [Sys.runK]
    rw [h3.parent]
    simp only [Husk.step]
    split
    · rfl
    · rename_i hh
      simp only [hh, Bool.false_eq_true, if_false]

example : ∃ e, (Sys.init.runK false Flavor.default ([.open 1, .token 2 3] ++
      .close :: [.token 2 3])).2[2]? = some (.error e) ∧ (e = .missingNode 0 ∨ e = .closeError) :=
  let ⟨e, h1, h2, _⟩ := C90_close_fails (fl := Flavor.default) (by decide) [.open 1, .token 2 3]
    [.token 2 3]
  ⟨e, h1, h2⟩

/-- C90: whatever was added, and if every call said it succeeded: the tree that is built has no
nodes, for any way of reading it. Its span still is that of the text. -/
theorem C90_nothing_kept (hw : 0 < fl.width) (ops : List (Op α)) {t : Tree α}
    (hb : (Sys.init.runK false fl ops).1.b.build = .ok t) :
    t.len = 0 ∧ t.isEmpty = true ∧ t.span = ⟨0, (Husk.new.run fl.ik ops).1.stop⟩ ∧
    (∀ i, t.get i = none) ∧ t.firstNode = none ∧ t.lastNode = none ∧
    Yields (Walk.next t.nodes) t.walk [] ∧ Yields (WalkEvents.next t.nodes) t.walk [] ∧
    Yields (Children.next t.nodes) t.children [] ∧ Yields (Children.nextBack t.nodes) t.children [] ∧
    (∀ search span, t.nodeWithSpan search span = .none) ∧
    (∀ search a b, t.nodeWithRange fl search a b = .none) ∧
    (∀ showIndex debugData debugStr, t.print showIndex debugData debugStr = some []) ∧
    (∀ c : ChangeSet, c.modify fl t = .ok Tree.empty) := by
  obtain ⟨h1, _⟩ := HuskRep.init.run hw ops
  simp only [Builder.build] at hb
  split at hb
  · simp at hb
  · simp only [Except.ok.injEq] at hb
    have hn : t.nodes = [] := hb ▸ h1.nodes
    have hs := hb ▸ h1.span
    refine ⟨by simp [Tree.len, hn], by simp [Tree.isEmpty, hn], hs, get_nil hn, ?_, ?_, ?_, ?_, ?_, ?_,
      fun _ _ => query_nil hn _ _ _, ?_, fun _ _ _ => print_nil _ _ _ _ hn,
      fun c => modify_nil hn c⟩
    · unfold Tree.firstNode; cases t.first with
      | none => rfl
      | some i => exact get_nil hn i
    · unfold Tree.lastNode; cases t.last with
      | none => rfl
      | some i => exact get_nil hn i
    · rw [hn]; exact .done (walk_nil _)
    · rw [hn]; exact yields_walkEvents_nil _
    · rw [hn]; exact (children_nil _).1
    · rw [hn]; exact (children_nil _).2
    · intro search a b
      unfold Tree.nodeWithRange
      split
      · rfl
      · split
        · rfl
        · exact query_nil hn _ _ _

/-- Three tokens, all of them accepted. -/
def threeTokens : List (Op Nat) := [.token 1 3, .token 2 4, .tokenEmpty 3]

example : ∃ t, (Sys.init.runK false Flavor.default threeTokens).1.b.build = .ok t ∧ t.len = 0 ∧
    t.span = ⟨0, 7⟩ := by
  have hp : (Sys.init.runK false Flavor.default threeTokens).1.b.parent.isSome = false := by
    decide +kernel
  have ht : (Sys.init.runK false Flavor.default threeTokens).1.b.build =
      .ok (Sys.init.runK false Flavor.default threeTokens).1.b.tree := by
    rw [Builder.build, hp]; rfl
  obtain ⟨h1, _, h3, _⟩ := C90_nothing_kept (fl := Flavor.default) (by decide) _ ht
  exact ⟨_, ht, h1, h3⟩

/-- C90: any two trees built like this compare equal, whatever they should contain. -/
theorem C90_all_equal [DecidableEq α] (hw : 0 < fl.width) (ops ops' : List (Op α)) {t t' : Tree α}
    (hb : (Sys.init.runK false fl ops).1.b.build = .ok t)
    (hb' : (Sys.init.runK false fl ops').1.b.build = .ok t') : t.eq t' = some true := by
  have h := (C90_nothing_kept hw ops hb).1
  have h' := (C90_nothing_kept hw ops' hb').1
  exact eq_nil (List.eq_nil_of_length_eq_zero h) (List.eq_nil_of_length_eq_zero h')

example : ∃ t t', (Sys.init.runK false Flavor.default [.token 1 3]).1.b.build = .ok t ∧
    (Sys.init.runK false Flavor.default [.token 2 5, .token 3 1]).1.b.build = .ok t' ∧
    t.span ≠ t'.span ∧ t.eq t' = some true :=
  ⟨_, _, rfl, rfl, by simp only [ne_eq]; decide +kernel, C90_all_equal (fl := Flavor.default) (by decide) [.token 1 3]
    [.token 2 5, .token 3 1] rfl rfl⟩

/-- C90: `tree!` and `tree_with!`. A literal with an item `expr => { .. }` fails, because of its first `close`, unless it fails before because the text is too long. A
literal of tokens only gives the tree without nodes, with the span of the text. -/
theorem C90_literals (hw : 0 < fl.width) (lit : Lit α) :
    (lit.braces = true → lit.treeK false fl = .error (.missingNode 0) ∨
      lit.treeK false fl = .error .overflow) ∧
    (lit.plain = true → Lit.Addressable fl.ik (lit.len fl.ik) →
      (lit.braces = true → lit.treeK false fl = .error (.missingNode 0)) ∧
      (lit.braces = false → ∃ t, lit.treeK false fl = .ok t ∧ t.len = 0 ∧
        t.span = ⟨0, lit.len fl.ik⟩)) := by
  have h0 : Husk.new.cursor + lit.len fl.ik = lit.len fl.ik := by simp [Husk.new]
  rcases lit_husk hw lit (HuskRep.init (α := α)) with ⟨q1, q2⟩ | ⟨q1, q2⟩ | ⟨s', h', q1, q2, q3, q4, q5⟩
  · refine ⟨fun _ => .inr (by simp only [Lit.treeK, q1]), fun hp ha => ?_⟩
    rw [← h0] at ha
    exact absurd ha (q2 hp rfl)
  · refine ⟨fun _ => .inl (by simp only [Lit.treeK, q1]), fun _ _ =>
      ⟨fun _ => by simp only [Lit.treeK, q1], fun hb => by rw [hb] at q2; simp at q2⟩⟩
  · refine ⟨fun hb => by rw [hb] at q4; simp at q4, fun hp ha =>
      ⟨fun hb => by rw [hb] at q4; simp at q4, fun _ => ⟨s'.b.tree, ?_, ?_, ?_⟩⟩⟩
    · have hpar : s'.b.parent = none := by
        rw [q2.parent, q3]; rfl
      simp only [Lit.treeK, q1, Builder.build, hpar]
      rfl
    · exact q2.len
    · obtain ⟨c1, c2⟩ := q5 hp rfl
      rw [q2.span, ← c1, c2, h0]

/-- `"a" => { ("b", 2) }` and `("b", 2), "c"`. -/
example : (Lit.node 1 (.token 2 2 .nil) .nil).treeK false Flavor.default =
      .error (.missingNode 0) ∧
    ∃ t, (Lit.token 1 2 (.tokenEmpty 3 .nil)).treeK false Flavor.default = .ok t ∧ t.len = 0 ∧
      t.span = ⟨0, 2⟩ :=
  ⟨((C90_literals (fl := Flavor.default) (by decide) (.node 1 (.token 2 2 .nil) .nil)).2 rfl
      (show (2 : Nat) < 2 ^ 32 by decide)).1 rfl,
    ((C90_literals (fl := Flavor.default) (by decide) (.token 1 2 (.tokenEmpty 3 .nil))).2 rfl
      (show (2 : Nat) < 2 ^ 32 by decide)).2 rfl⟩

/-- C90: as far as only tokens are added, the cursor and the span of the tree are those with `Vec`
storage, so a client cannot tell from them that nothing is kept. -/
theorem C90_text_alike (hw : 0 < fl.width) (ops : List (Op α))
    (ht : ∀ op ∈ ops, (∃ d n, op = .token d n) ∨ (∃ d, op = .tokenEmpty d) ∨ ∃ i, op = .setCursor i) :
    (Sys.init.runK false fl ops).1.b.cursor = (Sys.init.run fl ops).1.b.cursor ∧
    (Sys.init.runK false fl ops).1.b.tree.span = (Sys.init.run fl ops).1.b.tree.span := by
  have := text_alike (fl := fl) hw ops ht (HuskRep.init (α := α)) (s' := Sys.init) rfl rfl
  exact this

example : (Sys.init.runK false Flavor.default [.token 1 3, .setCursor 7, .token 2 4]).1.b.tree.span =
    ⟨0, 11⟩ := by
  rw [(C90_text_alike (fl := Flavor.default) (by decide) [.token 1 3, .setCursor 7, .token 2 4]
    (by simp)).2]
  decide +kernel

end Syntree
