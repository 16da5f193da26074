import Verif.Proof.Made
import Verif.Proof.Equal
import Verif.Proof.Listing
import Verif.Model.Print
import Verif.Model.Search
import Verif.Props.Edit

/-!
# C49, C50: no misuse makes a tree on which reading or editing hangs

`Obtained t` (`Spec/Obtained.lean`): some program gets hold of `t`, having used any checkpoint with
any builder. The nodes need not be a proper nested list any more (see `C23_fails`), but nothing
loops. `Yields next s l` says that the iterator ends, and what it returns.
-/

namespace Syntree

variable {α : Type} {t : Tree α}

open Forest

/-! A witness: the second checkpoint is swallowed by the first `close_at`, and used afterwards. -/

def wildOps : List (WOp Nat) :=
  [.new Flavor.default, .call 0 .checkpoint, .call 0 (.token 1 1), .call 0 .checkpoint,
    .call 0 (.token 2 1), .call 0 (.token 3 1), .call 0 (.closeAt 0 4), .call 0 (.closeAt 1 5),
    .call 0 (.token 6 1)]

def wildTree : Tree Nat :=
  match (World.init.run wildOps).1.builders[0]? with
  | some (_, b) => b.tree
  | none => Tree.empty

theorem wild_obtained : Obtained wildTree :=
  .built (ops := wildOps) (i := 0) (fl := Flavor.default) rfl rfl rfl

/-- It is not a nested list: the token `6` (node 5) has been added as a root, and it says that it has
no parent, but it is linked as the next sibling of node 4, a child of node 3. -/
example : (wildTree.nodes.map fun l => (l.data, l.parent, l.prev, l.next, l.first, l.last)) =
    [(1, some 3, none, some 4, none, none), (2, some 4, none, some 2, none, none),
      (3, some 4, some 1, none, none, none), (4, none, none, none, some 0, some 2),
      (5, some 3, some 0, some 5, some 1, some 2), (6, none, some 4, none, none, none)] ∧
    wildTree.first = some 3 ∧ wildTree.last = some 5 := ⟨rfl, rfl, rfl⟩

/-! ## Walking -/

theorem walks_end {own : Nat → Option Nat} {rank : Nat → Nat} (ho : Own t.nodes own rank) {n : Nat}
    (hn : n < t.nodes.length) (e : Event) (D : Int) :
    (∃ l, Yields (WalkEvents.next t.nodes) ⟨some (n, e), D⟩ l ∧ l.length ≤ 2 * t.len) ∧
    (∃ l, Yields (Walk.next t.nodes) ⟨some (n, e), D⟩ l ∧ l.Nodup ∧ ∀ i ∈ l, i < t.len) ∧
    (∃ l, Yields (WithDepths.next t.nodes) ⟨some (n, e), D⟩ l ∧ (l.map (·.2)).Nodup ∧
      ∀ p ∈ l, p.2 < t.len) ∧
    (∃ l, Yields (Inside.next t.nodes) ⟨some (n, e), D⟩ l ∧ l.Nodup ∧ ∀ i ∈ l, i < t.len) := by
  obtain ⟨l, h1, h2, h3, h4, h5⟩ := ho.rest hn e D
  have hu : ups l ≤ t.nodes.length := by
    rw [← outs_length]; exact length_le_of_lt _ _ h3 h5
  have hi : (ins l).length ≤ t.nodes.length := length_le_of_lt _ _ h2 h4
  refine ⟨⟨_, h1.events, ?_⟩, ⟨_, h1.walk hu, ?_, ?_⟩, ⟨_, h1.withDepths _ _ (by omega), ?_, ?_⟩, ?_⟩
  · have hl : l.length = (ins l).length + ups l := by
      clear h1 h2 h3 h4 h5 hu hi
      induction l with
      | nil => rfl
      | cons a l ih =>
        obtain ⟨d, e, n⟩ := a
        by_cases he : e = .up
        · subst he
          rw [ins_up, ups_cons, List.length_cons, ih]
          simp; omega
        · rw [ins_other _ he, ups_cons, List.length_cons, ih]
          simp [he]; omega
    have e : t.len = t.nodes.length := rfl
    simp only [List.length_map, e]
    omega
  · rw [ins_visited]; exact h2
  · rw [ins_visited]; exact h4
  · rw [ins_visited]; exact h2
  · intro p hp
    refine h4 _ ?_
    rw [← ins_visited]
    exact List.mem_map_of_mem hp
  · obtain ⟨v, v1, v2⟩ := h1.insideAll (t.nodes.length + 1) l.length (Nat.le_refl _) (by omega)
    exact ⟨v, v1, h2.sublist v2, fun i hi => h4 i (v2.subset hi)⟩

/-- C49: on every tree a program can get hold of, `tree.walk()`, `walk_events()`, `with_depths()`
and `inside()` end; the walks return no node twice, and there are at most two events per node. -/
theorem C49_tree_walks_end (h : Obtained t) :
    (∃ l, Yields (WalkEvents.next t.nodes) t.walk l ∧ l.length ≤ 2 * t.len) ∧
    (∃ l, Yields (Walk.next t.nodes) t.walk l ∧ l.Nodup ∧ ∀ i ∈ l, i < t.len) ∧
    (∃ l, Yields (WithDepths.next t.nodes) t.walk l ∧ (l.map (·.2)).Nodup ∧ ∀ p ∈ l, p.2 < t.len) ∧
    (∃ l, Yields (Inside.next t.nodes) t.walk l ∧ l.Nodup ∧ ∀ i ∈ l, i < t.len) := by
  obtain ⟨own, rank, ho, hf⟩ := h.sane
  unfold Tree.walk WalkEvents.new
  cases hx : t.first with
  | none =>
    refine ⟨⟨[], .done rfl, Nat.zero_le _⟩, ⟨[], .done rfl, by simp, by simp⟩,
      ⟨[], .done rfl, by simp, by simp⟩, ⟨[], .done rfl, by simp, by simp⟩⟩
  | some f => exact walks_end ho (hf.lt hx) .next 0

/-- C49: the same for `walk()` and `walk_from()` of every node, and `walk_events()`,
`with_depths()` and `inside()` of these. -/
theorem C49_node_walks_end (h : Obtained t) {n : Nat} (hn : n < t.len) {w : WalkEvents}
    (hw : w = nodeWalk n ∨ w = nodeWalkFrom n) :
    (∃ l, Yields (WalkEvents.next t.nodes) w l ∧ l.length ≤ 2 * t.len) ∧
    (∃ l, Yields (Walk.next t.nodes) w l ∧ l.Nodup ∧ ∀ i ∈ l, i < t.len) ∧
    (∃ l, Yields (WithDepths.next t.nodes) w l ∧ (l.map (·.2)).Nodup ∧ ∀ p ∈ l, p.2 < t.len) ∧
    (∃ l, Yields (Inside.next t.nodes) w l ∧ l.Nodup ∧ ∀ i ∈ l, i < t.len) := by
  obtain ⟨own, rank, ho, _⟩ := h.sane
  rcases hw with rfl | rfl
  · exact walks_end ho hn .next 0
  · exact walks_end ho hn .up 0

example : ∃ l, Yields (Walk.next wildTree.nodes) wildTree.walk l ∧ l.Nodup :=
  let ⟨l, h1, h2, _⟩ := (C49_tree_walks_end wild_obtained).2.1
  ⟨l, h1, h2⟩

/-! ## Children, siblings, ancestors -/

/-- C49: any interleaving of `next` and `next_back` on the children of the tree or of a node ends:
`Children.room` bounds the number of items, and every item uses up at least one. -/
theorem children_room (ho : Sane t) {c c' : Children} {x : Nat}
    (e : Children.next t.nodes c = (c', .some x) ∨ Children.nextBack t.nodes c = (c', .some x)) :
    c'.room t.nodes.length < c.room t.nodes.length ∧ x < t.nodes.length := by
  obtain ⟨own, rank, ho, _⟩ := ho
  rcases e with e | e
  · exact ⟨(ho.children_next e).1, (ho.children_next e).2.1⟩
  · exact ⟨(ho.children_next_back e).1, (ho.children_next_back e).2.1⟩

/-- The number of items returned by a sequence of calls. -/
def countItems {β : Type} : List (Got β) → Nat
  | [] => 0
  | .some _ :: l => countItems l + 1
  | _ :: l => countItems l

theorem children_room_none {N : Nat} {nodes : Slice α} {c c' : Children}
    (e : Children.next nodes c = (c', .none) ∨ Children.nextBack nodes c = (c', .none)) :
    c'.room N ≤ c.room N := by
  have key : c' = c ∨ c' = { c with first := none } ∨ c' = { c with last := none } := by
    rcases e with e | e
    · unfold Children.next at e
      split at e
      · simp at e; exact .inl e.symm
      · split at e
        · simp at e; exact .inr (.inl e.symm)
        · simp only at e
          split at e
          · simp at e; exact .inr (.inl e.symm)
          · split at e <;> simp at e
    · unfold Children.nextBack at e
      split at e
      · simp at e; exact .inl e.symm
      · split at e
        · simp at e; exact .inr (.inr e.symm)
        · simp only at e
          split at e
          · simp at e; exact .inr (.inr e.symm)
          · split at e <;> simp at e
  rcases key with rfl | rfl | rfl
  · exact Nat.le_refl _
  · simp only [Children.room]; omega
  · simp only [Children.room]; omega

theorem runEnds_room (ho : Sane t) (bs : List Bool) (c : Children) :
    countItems (runEnds (Children.next t.nodes) (Children.nextBack t.nodes) bs c) ≤
      c.room t.nodes.length := by
  induction bs generalizing c with
  | nil => exact Nat.zero_le _
  | cons b bs ih =>
    simp only [runEnds]
    generalize hr : (if b = true then Children.next t.nodes c else Children.nextBack t.nodes c) = r
    obtain ⟨c', g⟩ := r
    simp only
    have hroom : ∀ x, g = .some x → c'.room t.nodes.length < c.room t.nodes.length := by
      intro x hx
      subst hx
      refine (children_room ho (x := x) (c := c) (c' := c') ?_).1
      cases b with
      | true => exact .inl hr
      | false => exact .inr hr
    cases g with
    | none =>
      have := children_room_none (N := t.nodes.length) (c := c) (c' := c') (nodes := t.nodes) (by
        cases b with
        | true => exact .inl hr
        | false => exact .inr hr)
      have := ih c'
      simp only [countItems]; omega
    | diverge =>
      have := children_no_diverge t.nodes c
      cases b with
      | true => simp only [if_true] at hr; rw [hr] at this; exact absurd rfl this.1
      | false =>
        simp only [Bool.false_eq_true, if_false] at hr
        rw [hr] at this; exact absurd rfl this.2
    | some x =>
      have := hroom x rfl
      have := ih c'
      simp only [countItems]; omega

/-- C49: `children()` of the tree or of a node ends, from either end; a client that calls `next` and
`next_back` in any order for as long as it likes gets at most `2 * len()` items (some of them may be
repeated, once from either end), all of them nodes of the tree. -/
theorem C49_children_end (h : Obtained t) {c : Children}
    (hc : c = t.children ∨ ∃ n, c = nodeChildren t.nodes n) :
    (∃ l, Yields (Children.next t.nodes) c l ∧ l.Nodup ∧ ∀ i ∈ l, i < t.len) ∧
    (∃ l, Yields (Children.nextBack t.nodes) c l ∧ l.Nodup ∧ ∀ i ∈ l, i < t.len) ∧
    ∀ bs, countItems (runEnds (Children.next t.nodes) (Children.nextBack t.nodes) bs c) ≤
      2 * t.len := by
  have hs := h.sane
  obtain ⟨own, rank, ho, _⟩ := h.sane
  refine ⟨?_, ?_, ?_⟩
  · obtain ⟨l, h1, h2, h3⟩ := ho.children_forward _ c (Nat.le_refl _)
    exact ⟨l, h1, h2.imp (fun h => Nat.ne_of_lt h), fun i hi => (h3 i hi).1⟩
  · obtain ⟨l, h1, h2, h3⟩ := ho.children_backward _ c (Nat.le_refl _)
    exact ⟨l, h1, h2.imp (fun h => (Nat.ne_of_lt h).symm), fun i hi => (h3 i hi).1⟩
  · intro bs
    refine Nat.le_trans (runEnds_room hs bs c) ?_
    unfold Children.room Tree.len
    have h1 : (match c.first with | some f => t.nodes.length - f | none => 0) ≤ t.nodes.length := by
      split <;> omega
    have h2 : (match c.last with | some l => min (l + 1) t.nodes.length | none => 0) ≤
        t.nodes.length := by
      split <;> omega
    have := Nat.add_le_add h1 h2
    rw [Nat.two_mul]
    exact this

example (bs : List Bool) :=
  (C49_children_end wild_obtained (c := nodeChildren wildTree.nodes 3) (.inr ⟨3, rfl⟩)).2.2 bs

/-- C49: `siblings()` and `ancestors()` of every node end, without repetition. -/
theorem C49_siblings_ancestors_end (h : Obtained t) {n : Nat} (hn : n < t.len) :
    (∃ l, Yields (Siblings.next t.nodes) (nodeSiblings n) l ∧ l.Nodup ∧ ∀ i ∈ l, i < t.len) ∧
    (∃ l, Yields (Ancestors.next t.nodes) (nodeAncestors n) l ∧ l.Nodup ∧ ∀ i ∈ l, i < t.len) := by
  obtain ⟨own, rank, ho, _⟩ := h.sane
  obtain ⟨dep, hd⟩ := ho.dep
  constructor
  · obtain ⟨l, h1, h2, h3⟩ := ho.siblings _ n hn (Nat.le_refl _)
    exact ⟨l, h1, h2.imp (fun h => Nat.ne_of_lt h), fun i hi => (h3 i hi).2⟩
  · obtain ⟨l, h1, h2, h3⟩ := ho.ancestors hd _ n hn (Nat.le_refl _)
    exact ⟨l, h1, h2, fun i hi => (h3 i hi).2⟩

example := C49_siblings_ancestors_end wild_obtained (n := 2) (by decide)

/-- C49: an iterator that returns every node at most once also ends when filtered by
`skip_tokens()`, and a single `next_node()` or `find()` on it returns. -/
theorem C49_skip_tokens_end {σ : Type} {next : NextFn σ Nat} {s : σ} {l : List Nat}
    (hy : Yields next s l) (hn : l.Nodup) (hl : ∀ i ∈ l, i < t.len) :
    Yields (SkipTokens.next t.nodes next) s (l.filter (hasChildren t.nodes)) ∧
    ∀ p, (SkipTokens.find t.nodes next p s).2 ≠ .diverge := by
  have hlen : l.length ≤ t.nodes.length := length_le_of_lt _ _ hn hl
  refine ⟨hy.filter _ _ _ (by omega), ?_⟩
  intro p
  unfold SkipTokens.find
  rcases findLoop_spec (fun n => hasChildren t.nodes n && p n) hy (t.nodes.length + 1) (by omega) with
    ⟨_, s', h⟩ | ⟨_, _, _, _, _, _, _, h, _⟩ <;> rw [h] <;> simp

example : ∃ l, Yields (SkipTokens.next wildTree.nodes (Walk.next wildTree.nodes)) wildTree.walk l :=
  let ⟨_, h1, h2, h3⟩ := (C49_tree_walks_end wild_obtained).2.1
  ⟨_, (C49_skip_tokens_end (t := wildTree) h1 h2 h3).1⟩

/-! ## Queries -/

/-- C49: `find_preceding` returns for every node and predicate, and `node_with_range` and
`node_with_span` return for every range (whatever the binary search of the standard library does). -/
theorem C49_queries_end (h : Obtained t) :
    (∀ p n, n < t.len → findPreceding t.nodes p n ≠ .diverge) ∧
    (∀ search sp, t.nodeWithSpan search sp ≠ .diverge) ∧
    ∀ fl search a b, t.nodeWithRange fl search a b ≠ .diverge := by
  obtain ⟨own, rank, ho, _⟩ := h.sane
  obtain ⟨dep, hd⟩ := ho.dep
  have key : ∀ search a b, t.nodeWithSpanInternal search a b ≠ .diverge := by
    intro search a b
    unfold Tree.nodeWithSpanInternal
    split
    · simp
    · split
      · simp
      · rename_i ix _ n hn
        have hl : n < t.nodes.length := by
          unfold Tree.get nodeAt at hn
          split at hn
          · simp at hn
          · rename_i l hl
            simp at hn; subst hn
            exact get_lt hl
        refine ho.climb hd b _ n ?_
        have := ho.dep_lt hd hl
        omega
  refine ⟨fun p n hn => ho.findPreceding p hn, fun search sp => key _ _ _, ?_⟩
  intro fl search a b
  unfold Tree.nodeWithRange
  split
  · simp
  · split
    · simp
    · exact key _ _ _

example : wildTree.nodeWithRange Flavor.default binarySearch 1 2 = .some 4 := rfl

/-- C49: printing ends, and so does comparing any two trees. (`none` is divergence.) -/
theorem C49_print_eq_end [DecidableEq α] {t' : Tree α} (h : Obtained t) (h' : Obtained t')
    (showIndex : Nat → String) (debugData : α → String) (debugStr : String → String)
    (source : Span → Option String) :
    (∃ lines, t.printWithLookup showIndex debugData debugStr source = some lines ∧
      lines.length ≤ t.len) ∧
    t.listing ≠ none ∧ t.eq t' ≠ none := by
  have hlen : ∀ {t : Tree α}, Obtained t → ∃ l, Yields (WithDepths.next t.nodes) t.walk l ∧
      l.length ≤ t.nodes.length := by
    intro t h
    obtain ⟨l, h1, h2, h3⟩ := (C49_tree_walks_end h).2.2.1
    refine ⟨l, h1, ?_⟩
    have := length_le_of_lt t.nodes.length _ h2 (by
      intro x hx
      obtain ⟨p, hp, rfl⟩ := List.mem_map.1 hx
      exact h3 p hp)
    simpa using this
  obtain ⟨l, h1, h2⟩ := hlen h
  obtain ⟨l', h1', h2'⟩ := hlen h'
  refine ⟨⟨_, forLoop_of_yields h1 _ (by omega), by rw [List.length_map]; exact h2⟩, ?_, ?_⟩
  · unfold Tree.listing
    rw [forLoop_of_yields h1 _ (by unfold Tree.len; omega)]
    simp
  · unfold Tree.eq
    rw [iterEq_of_yields _ h1 h1' _ (by omega)]
    simp

example : wildTree.eq wildTree = some true := by decide

/-! ## C50 -/

/-- C50: `modify` of every tree a program can get hold of ends, with `Overflow` or with a made tree,
to which C06 – C20 apply: a proper nested list, with ids in document order, whose childless nodes
lie end to end. Also its stored `last` links are right, whatever they were in the input. -/
theorem C50_modify_repairs {fl : Flavor} (h : Obtained t) (c : ChangeSet) :
    c.modify fl t = .error .overflow ∨
    ∃ t' G, c.modify fl t = .ok t' ∧ Made fl t' G ∧ t'.listing = some G.listing ∧ G.Numbered ∧
      t'.span.start = 0 ∧ EndToEnd 0 G.leaves t'.span.stop ∧ t'.len = G.size ∧
      t'.lastNode = (G.tops.map (·.id)).getLast? ∧
      ∀ {anc : List (Lab α)} {left kids right : Forest (Lab α)} {x : Lab α},
        Loc G anc left x kids right →
        nodeLast t'.nodes x.id = (kids.tops.map (·.id)).getLast? := by
  obtain ⟨F, _, _, _, _, ⟨e, _, h2⟩ | ⟨n, t', g0, g1, g2, g3, g4, g5, g6, _⟩⟩ :=
    h.sane.modify (fl := fl) c
  · exact .inl h2
  · right
    refine ⟨t', n.cur, g1, .salvaged h g1 g2.listing, g2.listing, g3, by rw [g4], ?_, g2.size.symm,
      g2.tree_last.2.2.1 rfl, fun hl => (g2.node_last hl).2.2.1 rfl⟩
    rw [g4]; exact g6

/-- The witness is repaired: a copy of it is a proper nested list. -/
example : ∃ t' G, ChangeSet.new.modify Flavor.default wildTree = .ok t' ∧ Made Flavor.default t' G := by
  rcases C50_modify_repairs (fl := Flavor.default) wild_obtained ChangeSet.new with h | ⟨t', G, h1, h2, _⟩
  · exact absurd (show _ = _ from h) (by intro h; nomatch h)
  · exact ⟨t', G, h1, h2⟩

end Syntree
