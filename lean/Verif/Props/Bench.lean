import Verif.Proof.Bench
import Verif.Props.Traverse

/-!
# C89: the programs of `benches/comparisons.rs`
-/

namespace Syntree.Bench

open Forest

variable {α : Type} {fl : Flavor}

/-- C89, in general: a checkpoint, the calls of any literal without explicit spans, and `close_at`.
If there are pointers for the nodes and the text is addressable, the result is the literal inside of
one new node, which has the last id; if not, the program fails with `Overflow`. -/
theorem C89_wrap (lit : Lit α) (d : α) (hp : lit.plain = true) :
    (lit.count + 1 ≤ 2 ^ fl.width - 1 ∧ Lit.Addressable fl.ik (lit.len fl.ik) →
      ∃ t, framed fl lit.calls d = .ok t ∧ t.len = lit.count + 1 ∧ t.span = ⟨0, lit.len fl.ik⟩ ∧
        t.listing = some (single ⟨lit.count, d, ⟨0, lit.len fl.ik⟩⟩ (lit.layout fl.ik 0 0)).listing) ∧
    (¬ (lit.count + 1 ≤ 2 ^ fl.width - 1 ∧ Lit.Addressable fl.ik (lit.len fl.ik)) →
      framed fl lit.calls d = .error .overflow) := by
  obtain ⟨h1, h2⟩ := framed_lit (fl := fl) lit d hp
  refine ⟨fun h => ?_, h2⟩
  obtain ⟨t, a, b, c, e⟩ := h1 h
  exact ⟨t, a, c, e, b.represents.listing⟩

/-- `"a" => { ("b", 2) }, ("c", 1)` inside of a node `"r"`. -/
example : ∃ t, framed Flavor.default (Lit.calls (.node 1 (.token 2 2 .nil) (.token 3 1 .nil))) 9 =
    .ok t ∧ t.listing = some [(0, 3, some 9, some ⟨0, 3⟩), (1, 0, some 1, some ⟨0, 2⟩),
      (2, 1, some 2, some ⟨0, 2⟩), (1, 2, some 3, some ⟨2, 3⟩)] := by
  obtain ⟨t, h1, _, _, h2⟩ := (C89_wrap (fl := Flavor.default)
    (.node 1 (.token 2 2 .nil) (.token 3 1 .nil)) 9 rfl).1 ⟨by decide, by show (3 : Nat) < 2 ^ 32; decide⟩
  exact ⟨t, h1, h2⟩

/-- C89: `iter().cycle().take(n)` gives `n` items, the `i`-th of which is item `i` modulo the number
of items; if there are none, it gives none. -/
theorem C89_cycled {β : Type} (items : List β) (n : Nat) :
    (items = [] → cycled items n = []) ∧
    (items ≠ [] → (cycled items n).length = n ∧
      ∀ i, i < n → (cycled items n)[i]? = items[i % items.length]?) := by
  refine ⟨?_, fun h => ⟨cycleFrom_length items h n items, fun i hi => ?_⟩⟩
  · rintro rfl
    cases n <;> rfl
  · have := cycleFrom_get items h n [] items rfl i hi
    simp only [List.length_nil, Nat.zero_add] at this
    exact this

example : (cycled [4, 5, 6] 8)[7]? = some 5 ∧ cycled [4, 5, 6] 8 = [4, 5, 6, 4, 5, 6, 4, 5] :=
  ⟨((C89_cycled [4, 5, 6] 8).2 (by simp)).2 7 (by omega), rfl⟩

/-- What a string adds to the text, in the measure of the flavor (`Lit.tokenLen`: nothing, if it has
no index). -/
def lenIn (fl : Flavor) (s : Text) : Nat := Lit.tokenLen fl.ik (Text.bytes s)

/-- Same for one character. -/
def oneIn (fl : Flavor) : Nat := Lit.tokenLen fl.ik 1

/-- C89: `syntree_build`. With `ss` the strings taken, if there are pointers for one node more than
that and the text is addressable, it builds a root over one token for each of them, in order, the
root having the last id; and it fails with `Overflow` if not. -/
theorem C89_build (strings : List Text) (count : Nat) {ss : List Text}
    (hs : ss = cycled strings count) :
    (ss.length + 1 ≤ 2 ^ fl.width - 1 ∧ Lit.Addressable fl.ik (ss.map (lenIn fl)).sum →
      ∃ t, build fl strings count = .ok t ∧ t.len = ss.length + 1 ∧
        t.span = ⟨0, (ss.map (lenIn fl)).sum⟩ ∧
        Yields (Children.next t.nodes) t.children [ss.length] ∧
        nodeValue t.nodes ss.length = some .root ∧ nodeSpan t.nodes ss.length = some t.span ∧
        Yields (Children.next t.nodes) (nodeChildren t.nodes ss.length) (List.range ss.length) ∧
        ∀ i, i < ss.length → nodeValue t.nodes i = some .string ∧
          nodeSpan t.nodes i = some ⟨((ss.take i).map (lenIn fl)).sum,
            ((ss.take (i + 1)).map (lenIn fl)).sum⟩ ∧ hasChildren t.nodes i = false) ∧
    (¬ (ss.length + 1 ≤ 2 ^ fl.width - 1 ∧ Lit.Addressable fl.ik (ss.map (lenIn fl)).sum) →
      build fl strings count = .error .overflow) := by
  obtain ⟨f1, f2, f3, f4, f5⟩ := flatLit_facts fl.ik ss
  obtain ⟨h1, h2⟩ := framed_lit (fl := fl) (flatLit ss) .root f1
  have e1 : framed fl (flatLit ss).calls .root = build fl strings count := by
    rw [f3, hs]; rfl
  have e2 : (ss.map (lenIn fl)).sum = (flatLit ss).len fl.ik := by rw [f4]; rfl
  have e3 : Lit.Addressable fl.ik (ss.map (lenIn fl)).sum ↔ Lit.Addressable fl.ik ((flatLit ss).len fl.ik) := by
    rw [e2]
  rw [e3]
  rw [e1, f2] at h1 h2
  refine ⟨fun h => ?_, h2⟩
  obtain ⟨t, a, b, c, d⟩ := h1 h
  have hr := b.represents
  have hroot : Loc (single (⟨ss.length, .root, ⟨0, (flatLit ss).len fl.ik⟩⟩ : Lab Syn)
    ((flatLit ss).layout fl.ik 0 0)) [] .nil _ _ .nil := .root rfl
  obtain ⟨_, g1, g2, _, _⟩ := hr.node_get hroot
  refine ⟨t, a, c, by rw [d, e2], hr.children, g1, by rw [g2, d], ?_, fun i hi => ?_⟩
  · have := hr.node_children hroot
    rw [(f5 0 0).1, ← List.range_eq_range'] at this
    exact this
  · obtain ⟨left, right, e⟩ := (f5 0 0).2 i hi
    obtain ⟨_, g1, g2, g3, _⟩ := hr.node_get (.child hroot e)
    simp only [Nat.zero_add] at g1 g2 g3
    exact ⟨g1, g2, g3⟩

/-- Four tokens from the three strings `"a"`, `"é"` and `""`. -/
example : ∃ t, build Flavor.default [['a'], ['é'], []] 4 = .ok t ∧
    Yields (Children.next t.nodes) (nodeChildren t.nodes 4) [0, 1, 2, 3] ∧
    nodeSpan t.nodes 1 = some ⟨1, 3⟩ ∧ nodeSpan t.nodes 2 = some ⟨3, 3⟩ := by
  obtain ⟨t, h1, _, _, _, _, _, h2, h3⟩ := (C89_build (fl := Flavor.default) [['a'], ['é'], []] 4
    (ss := [['a'], ['é'], [], ['a']]) rfl).1 ⟨by decide, by show (4 : Nat) < 2 ^ 32; decide⟩
  exact ⟨t, h1, h2, (h3 1 (by decide)).2.1, (h3 2 (by decide)).2.1⟩

/-- Pointers of two bits: room for three nodes, not for four. -/
example : build ⟨.bits 32, 2, true⟩ [['a']] 3 = .error .overflow :=
  (C89_build [['a']] 3 rfl).2 (fun h => absurd h.1 (by decide))

/-- C89: `syntree_tree`. With `ss` the strings taken, if there are pointers for three times as many
nodes and one, and the text (with one character after each string) is addressable, it builds a root
over an entry with one token and a token, for each of them; `root.children()` has two items for each
string and `root.children().skip_tokens()` one; and it fails with `Overflow` if not. -/
theorem C89_tree (strings : List Text) (n : Nat) {ss : List Text} (hs : ss = cycled strings n) :
    (3 * ss.length + 1 ≤ 2 ^ fl.width - 1 ∧ Lit.Addressable fl.ik (ss.map (lenIn fl · + oneIn fl)).sum →
      ∃ t, tree fl n strings = .ok t ∧ t.len = 3 * ss.length + 1 ∧
        t.span = ⟨0, (ss.map (lenIn fl · + oneIn fl)).sum⟩ ∧
        Yields (Children.next t.nodes) t.children [3 * ss.length] ∧
        nodeValue t.nodes (3 * ss.length) = some .root ∧
        nodeSpan t.nodes (3 * ss.length) = some t.span ∧
        Yields (Children.next t.nodes) (nodeChildren t.nodes (3 * ss.length))
          ((List.range ss.length).flatMap fun i => [3 * i, 3 * i + 2]) ∧
        Yields (SkipTokens.next t.nodes (Children.next t.nodes))
          (nodeChildren t.nodes (3 * ss.length)) ((List.range ss.length).map (3 * ·)) ∧
        ∀ i, (hi : i < ss.length) →
          let pos := ((ss.take i).map (lenIn fl · + oneIn fl)).sum
          let stop := pos + lenIn fl ss[i]
          nodeValue t.nodes (3 * i) = some .entry ∧ nodeSpan t.nodes (3 * i) = some ⟨pos, stop⟩ ∧
          Yields (Children.next t.nodes) (nodeChildren t.nodes (3 * i)) [3 * i + 1] ∧
          nodeValue t.nodes (3 * i + 1) = some .string ∧
          nodeSpan t.nodes (3 * i + 1) = some ⟨pos, stop⟩ ∧
          nodeValue t.nodes (3 * i + 2) = some .whitespace ∧
          nodeSpan t.nodes (3 * i + 2) = some ⟨stop, stop + oneIn fl⟩) ∧
    (¬ (3 * ss.length + 1 ≤ 2 ^ fl.width - 1 ∧ Lit.Addressable fl.ik (ss.map (lenIn fl · + oneIn fl)).sum) →
      tree fl n strings = .error .overflow) := by
  obtain ⟨f1, f2, f3, f4, f5⟩ := entryLit_facts fl.ik ss
  obtain ⟨h1, h2⟩ := framed_lit (fl := fl) (entryLit ss) .root f1
  have e1 : framed fl (entryLit ss).calls .root = tree fl n strings := by
    rw [f3, hs]; rfl
  have e2 : (ss.map (lenIn fl · + oneIn fl)).sum = (entryLit ss).len fl.ik := by rw [f4]; rfl
  have e3 : Lit.Addressable fl.ik (ss.map (lenIn fl · + oneIn fl)).sum ↔
      Lit.Addressable fl.ik ((entryLit ss).len fl.ik) := by
    rw [e2]
  rw [e3]
  rw [e1, f2] at h1 h2
  refine ⟨fun h => ?_, h2⟩
  obtain ⟨t, a, b, c, d⟩ := h1 h
  have hr := b.represents
  have hroot : Loc (single (⟨3 * ss.length, .root, ⟨0, (entryLit ss).len fl.ik⟩⟩ : Lab Syn)
    ((entryLit ss).layout fl.ik 0 0)) [] .nil _ _ .nil := .root rfl
  obtain ⟨_, g1, g2, _, _⟩ := hr.node_get hroot
  have hch : Yields (Children.next t.nodes) (nodeChildren t.nodes (3 * ss.length))
      ((List.range ss.length).flatMap fun i => [3 * i, 3 * i + 2]) := by
    have := hr.node_children hroot
    rw [(f5 0 0).1] at this
    simpa using this
  have hkid : ∀ i, i < ss.length → hasChildren t.nodes (3 * i) = true ∧
      hasChildren t.nodes (3 * i + 2) = false := by
    intro i hi
    obtain ⟨left, right, e⟩ := (f5 0 0).2 i hi
    have l1 := hr.node_get (.child hroot e)
    have l2 := hr.node_get (.child hroot (left := left ++ .cons _ _ .nil) (e.trans (by
      rw [Forest.append_assoc]; rfl)))
    simp only [Nat.zero_add] at l1 l2
    exact ⟨l1.2.2.2.1, l2.2.2.2.1⟩
  refine ⟨t, a, c, by rw [d, e2], hr.children, g1, by rw [g2, d], hch, ?_, fun i hi => ?_⟩
  · have hb : ((List.range ss.length).flatMap fun i => [3 * i, 3 * i + 2]).length ≤ t.nodes.length := by
      have : t.nodes.length = 3 * ss.length + 1 := c
      have h2 : ∀ m, ((List.range m).flatMap fun i => [3 * i, 3 * i + 2]).length = 2 * m := by
        intro m
        induction m with
        | zero => rfl
        | succ m ih => rw [List.range_succ, List.flatMap_append, List.length_append, ih]; rfl
      rw [this, h2]; omega
    have := (C18_skip_tokens_filters (back := Children.next t.nodes) t.nodes hch hb
      (fun _ => true)).1
    rw [List.filter_flatMap] at this
    have e : (List.range ss.length).flatMap (fun i => [3 * i, 3 * i + 2].filter (hasChildren t.nodes)) =
        (List.range ss.length).map (3 * ·) := by
      rw [List.map_eq_flatMap]
      refine flatMap_same ?_
      intro i hi
      have := hkid i (List.mem_range.1 hi)
      simp [this.1, this.2]
    rw [e] at this
    exact this
  · obtain ⟨left, right, e⟩ := (f5 0 0).2 i hi
    have p1 := Loc.child hroot e
    have l1 := hr.node_get p1
    have l2 := hr.node_get (.child hroot (left := left ++ .cons _ _ .nil) (e.trans (by
      rw [Forest.append_assoc]; rfl)))
    have l3 := hr.node_get (.child (left := .nil) p1 rfl)
    have l4 := hr.node_children p1
    simp only [Nat.zero_add] at l1 l2 l3 l4
    exact ⟨l1.2.1, l1.2.2.1, l4, l3.2.1, l3.2.2.1, l2.2.1, l2.2.2.1⟩

/-- Two entries with pointers of 16 bits, as in the benchmark `children_full`; 21845 entries are too
many (the benchmark stops at 16384). -/
example : (∃ t, tree ⟨.bits 32, 16, true⟩ 2 [['a', 'b'], []] = .ok t ∧
      Yields (Children.next t.nodes) (nodeChildren t.nodes 6) [0, 2, 3, 5] ∧
      Yields (SkipTokens.next t.nodes (Children.next t.nodes)) (nodeChildren t.nodes 6) [0, 3] ∧
      nodeSpan t.nodes 2 = some ⟨2, 3⟩ ∧ nodeSpan t.nodes 3 = some ⟨3, 3⟩) ∧
    tree ⟨.bits 32, 16, true⟩ 21845 [['a']] = .error .overflow := by
  refine ⟨?_, (C89_tree [['a']] 21845 rfl).2 (fun h => absurd h.1 ?_)⟩
  · obtain ⟨t, h1, _, _, _, _, _, h2, h3, h4⟩ := (C89_tree (fl := ⟨.bits 32, 16, true⟩)
      [['a', 'b'], []] 2 (ss := [['a', 'b'], []]) rfl).1
      ⟨by decide, by show (4 : Nat) < 2 ^ 32; decide⟩
    exact ⟨t, h1, h2, h3, (h4 0 (by decide)).2.2.2.2.2.2, (h4 1 (by decide)).2.1⟩
  · rw [((C89_cycled [['a']] 21845).2 (by simp)).1]
    decide

end Syntree.Bench
