import Verif.Proof.Cover
import Verif.Proof.Grow
import Verif.Proof.Cursor

/-!
# Properties C29 – C34: spans

`Op.cursorDriven` are the calls without explicit spans (and without `set_cursor`); `Spare` says that
no call has run out of pointers. `made ops results` are the calls that created a node, in the order
of the ids they got, and `textLen` is the total length of the tokens among some calls.
-/

namespace Syntree

variable {α : Type} {fl : Flavor} {ops : List (Op α)} {t : Tree α} {F : Forest (Lab α)}

open Forest

/-- What the invariants say about a built tree. -/
theorem Built.lens (h : Built fl ops t F) (hc : ∀ op ∈ ops, op.cursorDriven = true)
    (hsp : Spare fl t.len (Sys.init.run fl ops).2) :
    Tiled 0 F (textLen fl (made ops (Sys.init.run fl ops).2)) ∧
    t.span = ⟨0, textLen fl (made ops (Sys.init.run fl ops).2)⟩ ∧
    ∀ x ∈ F.leaves, x.span = ⟨startOf fl (made ops (Sys.init.run fl ops).2) x.id,
      startOf fl (made ops (Sys.init.run fl ops).2) (x.id + 1)⟩ := by
  obtain ⟨n, os, h1, hs, hcur, ho, _, hlen, _, hspan⟩ := h.parts
  rw [ho, hlen] at hsp
  have hi := LenInv.of_run h1 hc hsp
  obtain ⟨s, h2, h3, h4⟩ := hi.span
  rw [hs] at h3
  simp only [OkStack] at h3
  subst h3
  rw [ho, ← hi.cursor, ← hcur]
  exact ⟨h2, by rw [hspan, h4], fun x hx => (hi.cur x hx).2⟩

theorem Tiled.loc {T : Nat} {anc : List (Lab α)} {left kids right : Forest (Lab α)} {x : Lab α}
    (h : Tiled 0 F T) (hl : Loc F anc left x kids right) :
    ∃ a b, Tiled a (left ++ .cons x kids right) b ∧ (anc = [] → a = 0 ∧ b = T) ∧
      ∀ p rest, anc = p :: rest → p.span = ⟨a, b⟩ := by
  induction hl with
  | root e => subst e; exact ⟨0, T, h, fun _ => ⟨rfl, rfl⟩, by simp⟩
  | child hl' e ih =>
    rename_i anc l p k r left x kids right
    obtain ⟨a, b, h1, _, _⟩ := ih
    obtain ⟨c, _, h2⟩ := h1.split
    obtain ⟨h3, h4, h5, h6⟩ := h2
    have := h5 (by rw [e]; intro h; cases left <;> simp at h)
    subst e
    refine ⟨_, _, this, by simp, ?_⟩
    intro p' rest he
    simp only [List.cons.injEq] at he
    rw [← he.1, ← h3]

/-! ## C30 -/

/-- C30: at any moment of a history without explicit spans, also one that misuses checkpoints,
`*cursor()` is the total length of the tokens added so far, and so is the end of the span of the tree
(which starts at 0). No node ends behind it. -/
theorem C30_cursor_is_total_length (fl : Flavor) {ops : List (Op α)}
    (hc : ∀ op ∈ ops, op.cursorDriven = true)
    (hsp : Spare fl (Sys.init.run fl ops).1.b.tree.len (Sys.init.run fl ops).2) :
    let s := Sys.init.run fl ops
    let total := textLen fl (made ops s.2)
    s.1.b.cursor = total ∧ s.1.b.tree.getSpan = ⟨0, total⟩ ∧
    ∀ i sp, nodeSpan s.1.b.tree.nodes i = some sp → sp.stop ≤ total := by
  obtain ⟨h1, h2⟩ := CurInv.run ops (Alone.init fl) CurInv.new hc hsp
  have h2' : (Sys.init.run fl ops).1.b.cursor =
      textLen fl (made ops (Sys.init.run fl ops).2) := by
    rw [h2]; exact Nat.zero_add _
  refine ⟨h2', by rw [Tree.getSpan, h1.stop, h2'], ?_⟩
  · intro i sp hi
    unfold nodeSpan at hi
    rw [← h2']
    cases hn : (Sys.init.run fl ops).1.b.tree.nodes[i]? with
    | none => rw [hn] at hi; simp at hi
    | some l =>
      rw [hn] at hi
      simp only [Option.map_some, Option.some.injEq] at hi
      rw [← hi]; exact h1.ends i l hn

/-- open; token of 3; empty token; token of 4 into a nested node that stays open. -/
example : let ops : List (Op Nat) := [.open 1, .token 2 3, .tokenEmpty 7, .open 3, .token 4 4]
    let s := Sys.init.run Flavor.default ops
    Spare Flavor.default s.1.b.tree.len s.2 ∧ textLen Flavor.default (made ops s.2) = 7 ∧
    s.1.b.cursor = 7 := by
  refine ⟨.inl (by decide), by decide, ?_⟩
  exact (C30_cursor_is_total_length _ (by decide) (.inl (by decide))).1

/-- A history with a misused checkpoint (the second one has been swallowed by the first `close_at`),
and more tokens after that. -/
example : let ops : List (Op Nat) := [.checkpoint, .token 1 1, .checkpoint, .token 2 3, .closeAt 0 5,
      .closeAt 1 6, .token 7 2]
    let s := Sys.init.run Flavor.default ops
    Nest.init.run Flavor.default ops = none ∧ s.1.b.cursor = 6 ∧
    ∀ i sp, nodeSpan s.1.b.tree.nodes i = some sp → sp.stop ≤ 6 := by
  have h := C30_cursor_is_total_length (α := Nat) Flavor.default (ops := [.checkpoint, .token 1 1,
    .checkpoint, .token 2 3, .closeAt 0 5, .closeAt 1 6, .token 7 2]) (by decide)
    (.inl (by decide))
  exact ⟨by rfl, h.1, h.2.2⟩

/-! ## C29 -/

/-- C29: the span of a childless node starts at the total length of the tokens created before it and
is as long as the call that made it says (the length of the token; nothing for a childless node made
by another call). -/
theorem C29_leaf_span (h : Built fl ops t F) (hc : ∀ op ∈ ops, op.cursorDriven = true)
    (hsp : Spare fl t.len (Sys.init.run fl ops).2) {i : Nat} {op : Op α}
    (hi : (made ops (Sys.init.run fl ops).2)[i]? = some op)
    (hleaf : hasChildren t.nodes i = false) :
    let start := textLen fl ((made ops (Sys.init.run fl ops).2).take i)
    nodeSpan t.nodes i = some ⟨start, start + op.len fl⟩ := by
  have hr := h.represents
  obtain ⟨_, _, h3⟩ := h.lens hc hsp
  obtain ⟨n, os, h1, hs, hcur, ho, _, hlen, _, _⟩ := h.parts
  have hlog := LogInv.of_run h1
  have hlt : i < t.len := by
    rw [hlen, ← hlog.len, ← ho]; exact (List.getElem?_eq_some_iff.1 hi).1
  have hmem : i ∈ F.ids := by
    rw [hr.perm.mem_iff]; simpa [Tree.len] using hlt
  obtain ⟨anc, left, x, kids, right, rfl, hl⟩ := Loc.of_id hmem
  obtain ⟨_, _, h4, h5, _⟩ := hr.node_get hl
  rw [h5] at hleaf
  have hk : kids = .nil := by cases kids <;> simp_all
  subst hk
  have hx : x ∈ F.leaves := by
    clear h3 h4 h5 hmem hlt hi hr hleaf hlen hcur h
    have key : ∀ {anc left kids right} {x : Lab α}, Loc F anc left x kids right →
        ∀ y ∈ (left ++ .cons x kids right).leaves, y ∈ F.leaves := by
      intro anc left kids right x hl
      induction hl with
      | root e => intro y hy; rw [e]; exact hy
      | child hl' e ih =>
        rename_i anc l p k r left x kids right
        intro y hy
        apply ih
        rw [leaves_append, List.mem_append]
        right
        rw [← e] at hy
        cases hk : k with
        | nil => rw [hk] at hy; simp [Forest.leaves] at hy
        | cons a b c =>
          rw [hk] at hy
          rw [show ∀ p r, Forest.cons p (Forest.cons a b c) r = Forest.single p (.cons a b c) ++ r
            from fun _ _ => rfl, leaves_append, leaves_single _ (by simp), List.mem_append]
          exact .inl hy
    refine key hl x ?_
    rw [leaves_append, List.mem_append]; right
    simp [Forest.leaves]
  intro start
  rw [h4, h3 x hx]
  have : startOf fl (made ops (Sys.init.run fl ops).2) (x.id + 1) = start + op.len fl := by
    unfold startOf
    rw [List.take_add_one, hi, textLen_append]; simp [textLen, start]
  rw [this]; rfl

/-- C29: the span of a node with children runs from the start of its first child to the end of its
last child, hence of its first and last descendant token. -/
theorem C29_inner_span (h : Built fl ops t F) (hc : ∀ op ∈ ops, op.cursorDriven = true)
    (hsp : Spare fl t.len (Sys.init.run fl ops).2) {anc : List (Lab α)}
    {left kids right : Forest (Lab α)} {x : Lab α} (hl : Loc F anc left x kids right)
    (hk : kids ≠ .nil) :
    (kids.leaves.head?.map (·.span.start) = some x.span.start) ∧
    (kids.leaves.getLast?.map (·.span.stop) = some x.span.stop) := by
  obtain ⟨h1, _, _⟩ := h.lens hc hsp
  obtain ⟨a, b, h2, _, _⟩ := h1.loc hl
  obtain ⟨c, _, h3⟩ := h2.split
  obtain ⟨h4, _, h5, _⟩ := h3
  have h6 := h5 hk
  rw [← h4] at h6
  have key : ∀ (G : Forest (Lab α)) (a b : Nat), Tiled a G b → G ≠ .nil →
      G.leaves.head?.map (·.span.start) = some a ∧ G.leaves.getLast?.map (·.span.stop) = some b := by
    intro G
    induction G with
    | nil => intro a b _ h; exact absurd rfl h
    | cons y k r ihk ihr =>
      intro a b h _
      obtain ⟨g1, g2, g3, g4⟩ := h
      have hfirst : (Forest.single y k).leaves.head?.map (·.span.start) = some a ∧
          (Forest.single y k).leaves.getLast?.map (·.span.stop) = some y.span.stop := by
        by_cases hk : k = .nil
        · subst hk; simp [leaves_leaf, g1]
        · rw [leaves_single _ hk]; exact ihk _ _ (g3 hk) hk
      have e : (Forest.cons y k r).leaves = (Forest.single y k).leaves ++ r.leaves := by
        rw [← leaves_append]; rfl
      rw [e]
      constructor
      · rw [List.head?_append]
        cases hh : (Forest.single y k).leaves.head? with
        | none => rw [hh] at hfirst; simp at hfirst
        | some z => rw [hh] at hfirst; simpa using hfirst.1
      · cases r with
        | nil =>
          simp only [Tiled] at g4
          rw [g4] at hfirst
          simpa [Forest.leaves] using hfirst.2
        | cons z k' r' =>
          have := (ihr _ _ g4 (by simp)).2
          rw [List.getLast?_append]
          cases hh : (Forest.cons z k' r').leaves.getLast? with
          | none => rw [hh] at this; simp at this
          | some w => rw [hh] at this; simpa using this
  exact key kids _ _ h6 hk

/-- nested, with a wrapped stretch, an empty token and a childless node -/
def lenOps : List (Op Nat) :=
  [.open 1, .checkpoint, .token 2 3, .tokenEmpty 3, .closeAt 0 4, .open 5, .close, .token 6 2,
    .close, .token 7 1]

def lenForest : Forest (Lab Nat) :=
  .cons ⟨0, 1, ⟨0, 5⟩⟩
    (.cons ⟨3, 4, ⟨0, 3⟩⟩ (.cons ⟨1, 2, ⟨0, 3⟩⟩ .nil (.leaf ⟨2, 3, ⟨3, 3⟩⟩))
      (.cons ⟨4, 5, ⟨3, 3⟩⟩ .nil (.leaf ⟨5, 6, ⟨3, 5⟩⟩)))
    (.leaf ⟨6, 7, ⟨5, 6⟩⟩)

def lenTree : Tree Nat := (Sys.init.run Flavor.default lenOps).1.b.tree

theorem lenOps_built : Built Flavor.default lenOps lenTree lenForest ∧
    (∀ op ∈ lenOps, op.cursorDriven = true) ∧
    Spare Flavor.default lenTree.len (Sys.init.run Flavor.default lenOps).2 :=
  ⟨⟨_, _, rfl, rfl, rfl⟩, by decide, .inl (by decide)⟩

example : nodeSpan lenTree.nodes 5 = some ⟨3, 5⟩ :=
  C29_leaf_span lenOps_built.1 lenOps_built.2.1 lenOps_built.2.2 (i := 5) (op := .token 6 2) rfl rfl

example : Loc lenForest [] .nil ⟨0, 1, ⟨0, 5⟩⟩
    (.cons ⟨3, 4, ⟨0, 3⟩⟩ (.cons ⟨1, 2, ⟨0, 3⟩⟩ .nil (.leaf ⟨2, 3, ⟨3, 3⟩⟩))
      (.cons ⟨4, 5, ⟨3, 3⟩⟩ .nil (.leaf ⟨5, 6, ⟨3, 5⟩⟩))) (.leaf ⟨6, 7, ⟨5, 6⟩⟩) :=
  .root (left := .nil) rfl

/-! ## C31 -/

/-- C31: for every node: its span does not end before it starts; its next sibling starts where it
ends; its first child starts where it starts, and the last of its children (in forward iteration)
ends where it ends. -/
theorem C31_siblings_tile (h : Built fl ops t F) (hc : ∀ op ∈ ops, op.cursorDriven = true)
    (hsp : Spare fl t.len (Sys.init.run fl ops).2) {i : Nat} (hi : i < t.len) :
    ∃ sp, nodeSpan t.nodes i = some sp ∧ sp.start ≤ sp.stop ∧
      (∀ j, nodeNext t.nodes i = some j → (nodeSpan t.nodes j).map (·.start) = some sp.stop) ∧
      (∀ j, nodeFirst t.nodes i = some j → (nodeSpan t.nodes j).map (·.start) = some sp.start) ∧
      (∀ l j, Yields (Children.next t.nodes) (nodeChildren t.nodes i) (l ++ [j]) →
        (nodeSpan t.nodes j).map (·.stop) = some sp.stop) := by
  have hr := h.represents
  obtain ⟨h1, _, _⟩ := h.lens hc hsp
  have hmem : i ∈ F.ids := by
    rw [hr.perm.mem_iff]; simpa [Tree.len] using hi
  obtain ⟨anc, left, x, kids, right, rfl, hl⟩ := Loc.of_id hmem
  obtain ⟨a, b, h2, _, _⟩ := h1.loc hl
  obtain ⟨c, _, h3⟩ := h2.split
  obtain ⟨h4, h5, h6, h7⟩ := h3
  have hspan := fun {y : Lab α} {anc left kids right} (hl : Loc F anc left y kids right) =>
    (hr.node_get hl).2.2.1
  refine ⟨x.span, hspan hl, by omega, ?_, ?_, ?_⟩
  · intro j hj
    rw [hr.node_next hl] at hj
    cases right with
    | nil => simp at hj
    | cons y k r =>
      simp only [headId_cons, Option.some.injEq] at hj
      subst hj
      rw [hspan (Loc.shift hl (left' := left ++ .single x kids) (k' := k) (r' := r)
        (by simp [append_assoc])), ← h7.1]; rfl
  · intro j hj
    rw [hr.node_first hl] at hj
    cases kids with
    | nil => simp at hj
    | cons y k r =>
      simp only [headId_cons, Option.some.injEq] at hj
      subst hj
      have := h6 (by simp)
      rw [hspan (Loc.child hl (left := .nil) rfl), h4, ← this.1]; rfl
  · intro l j hy
    have hk := (hr.node_children hl).det hy
    have hne : kids ≠ .nil := by
      rintro rfl; simp at hk
    obtain ⟨pre, y, k, e⟩ := Forest.exists_snoc kids hne
    have : j = y.id := by
      rw [e] at hk
      simp only [topIds_append, topIds_cons, topIds_nil] at hk
      have := congrArg List.getLast? hk
      simp at this
      exact this.symm
    subst this
    rw [hspan (Loc.child hl e)]
    have h8 := h6 hne
    have : kids.last? = some y := by
      rw [e]; simp [Forest.last?]
    rw [← h8.last this]; rfl

example := C31_siblings_tile lenOps_built.1 lenOps_built.2.1 lenOps_built.2.2 (i := 3) (by decide)

/-- C31 for the outermost level: the first root starts at 0 and the last one ends where the tree
ends. -/
theorem C31_roots_tile (h : Built fl ops t F) (hc : ∀ op ∈ ops, op.cursorDriven = true)
    (hsp : Spare fl t.len (Sys.init.run fl ops).2) :
    (∀ j, t.firstNode = some j → (nodeSpan t.nodes j).map (·.start) = some 0) ∧
    (∀ l j, Yields (Children.next t.nodes) t.children (l ++ [j]) →
      (nodeSpan t.nodes j).map (·.stop) = some t.getSpan.stop) := by
  have hr := h.represents
  obtain ⟨h1, h2, _⟩ := h.lens hc hsp
  constructor
  · intro j hj
    rw [hr.tree_first] at hj
    cases F with
    | nil => simp at hj
    | cons y k r =>
      simp only [headId_cons, Option.some.injEq] at hj
      subst hj
      rw [(hr.node_get (Loc.root (left := .nil) rfl)).2.2.1, ← h1.1]; rfl
  · intro l j hy
    have hk := hr.children.det hy
    have hne : F ≠ .nil := by
      rintro rfl; simp at hk
    obtain ⟨pre, y, k, e⟩ := Forest.exists_snoc F hne
    have : j = y.id := by
      rw [e] at hk
      simp only [topIds_append, topIds_cons, topIds_nil] at hk
      have := congrArg List.getLast? hk
      simp at this
      exact this.symm
    subst this
    rw [(hr.node_get (Loc.root e)).2.2.1, Tree.getSpan, h2]
    have : F.last? = some y := by
      rw [e]; simp [Forest.last?]
    rw [← h1.last this]; rfl

example := C31_roots_tile lenOps_built.1 lenOps_built.2.1 lenOps_built.2.2

/-! ## C32 -/

theorem slice_append {β : Type} (source : List β) {a b c : Nat} (h1 : a ≤ b) (h2 : b ≤ c) :
    sliceOf source (a, b) ++ sliceOf source (b, c) = sliceOf source (a, c) := by
  unfold sliceOf
  have e : c - a = (b - a) + (c - b) := by omega
  have e2 : source.drop b = (source.drop a).drop (b - a) := by
    rw [List.drop_drop]; congr 1; omega
  simp only [e, List.take_add, e2]

theorem Tiled.text {β : Type} (source : List β) {a b : Nat} {G : Forest (Lab α)}
    (h : Tiled a G b) :
    G.leaves.flatMap (fun x => sliceOf source (x.span.start, x.span.stop)) = sliceOf source (a, b) := by
  induction G generalizing a b with
  | nil =>
    simp only [Tiled] at h
    subst h
    simp [Forest.leaves, sliceOf]
  | cons y k r ihk ihr =>
    obtain ⟨h1, h2, h3, h4⟩ := h
    have e : (Forest.cons y k r).leaves = (Forest.single y k).leaves ++ r.leaves := by
      rw [← leaves_append]; rfl
    rw [e, List.flatMap_append, ihr h4, ← slice_append source h2 h4.le]
    congr 1
    by_cases hk : k = .nil
    · subst hk; simp [leaves_leaf, h1]
    · rw [leaves_single _ hk, ihk (h3 hk)]

theorem leaves_eq_filter {g : Bool} (h : Represents g t F) :
    F.leaves.map (·.id) = (F.preorder.map (·.id)).filter (nodeIsEmpty t.nodes) := by
  have sub : ∀ (G : Forest (Lab α)) anc l, (∃ F' , F' = l ++ G ∧
      ((anc = [] ∧ F = F') ∨ ∃ p rest l' r', anc = p :: rest ∧ Loc F rest l' p F' r')) →
      G.leaves.map (·.id) = (G.preorder.map (·.id)).filter (nodeIsEmpty t.nodes) := by
    intro G
    induction G with
    | nil => intros; rfl
    | cons y k r ihk ihr =>
      rintro anc l ⟨F', rfl, hF⟩
      have hl : Loc F anc l y k r := by
        rcases hF with ⟨rfl, e⟩ | ⟨p, rest, l', r', rfl, hl'⟩
        · exact .root e
        · exact .child hl' rfl
      have h1 := (h.node_get hl).2.2.2.2
      have hr := ihr anc (l ++ .single y k) ⟨_, rfl, by simpa [append_assoc] using hF⟩
      have hk := ihk (y :: anc) .nil ⟨_, rfl, .inr ⟨y, anc, l, r, rfl, by simpa using hl⟩⟩
      simp only [preorder_cons, List.map_cons, List.map_append, List.filter_cons,
        List.filter_append, h1, ← hr, ← hk]
      cases k with
      | nil => simp [Forest.leaves]
      | cons a b c => simp [Forest.leaves]
  exact sub F [] .nil ⟨F, rfl, .inl ⟨rfl, rfl⟩⟩

/-- C32: take any source text as long as the tokens together. If `tree.walk()` yields the nodes `l`,
then concatenating `source[node.range()]` over the childless ones among them gives the source. -/
theorem C32_lossless {β : Type} (source : List β) (h : Built fl ops t F)
    (hc : ∀ op ∈ ops, op.cursorDriven = true) (hsp : Spare fl t.len (Sys.init.run fl ops).2)
    (hlen : source.length = textLen fl (made ops (Sys.init.run fl ops).2))
    {l : List Nat} (hw : Yields (Walk.next t.nodes) t.walk l) :
    (l.filter (nodeIsEmpty t.nodes)).flatMap (nodeText fl source t) = source := by
  have hr := h.represents
  obtain ⟨h1, _, _⟩ := h.lens hc hsp
  obtain rfl := hr.walk.det hw
  rw [Forest.ids, ← leaves_eq_filter hr, List.flatMap_map]
  have h2 := h1.text source
  rw [← hlen] at h2
  have e : sliceOf source (0, source.length) = source := by simp [sliceOf]
  rw [e] at h2
  refine Eq.trans ?_ h2
  have hsub : ∀ x ∈ F.leaves, x ∈ F.preorder := by
    intro x hx
    have : ∀ G : Forest (Lab α), ∀ x ∈ G.leaves, x ∈ G.preorder := by
      intro G
      induction G with
      | nil => simp [Forest.leaves]
      | cons y k r ihk ihr =>
        intro x hx
        cases k with
        | nil =>
          simp only [Forest.leaves, List.mem_cons] at hx
          rcases hx with rfl | hx
          · simp
          · simp [ihr x hx]
        | cons a b c =>
          simp only [Forest.leaves, List.mem_append] at hx
          rw [preorder_cons, List.mem_cons, List.mem_append]
          rcases hx with hx | hx
          · exact .inr (.inl (ihk x (by simpa [Forest.leaves] using hx)))
          · exact .inr (.inr (ihr x hx))
    exact this F x hx
  have hzero : fl.ik = .empty → source = [] := by
    intro he
    have : textLen fl (made ops (Sys.init.run fl ops).2) = 0 := by
      unfold textLen
      have : ∀ l : List (Op α), (l.map (Op.len fl)).sum = 0 := by
        intro l
        induction l with
        | nil => rfl
        | cons op l ih =>
          simp only [List.map_cons, List.sum_cons, ih, Nat.add_zero]
          cases op <;> simp [Op.len, he, IndexKind.lenIsEmpty]
      exact this _
    rw [this] at hlen
    exact List.eq_nil_of_length_eq_zero hlen
  have hcong : ∀ L : List (Lab α), (∀ x ∈ L, x ∈ F.preorder) →
      L.flatMap (fun a => nodeText fl source t a.id) =
        L.flatMap (fun x => sliceOf source (x.span.start, x.span.stop)) := by
    intro L
    induction L with
    | nil => intro _; rfl
    | cons x L ih =>
      intro hL
      rw [List.flatMap_cons, List.flatMap_cons, ih (fun y hy => hL y (by simp [hy]))]
      congr 1
      obtain ⟨anc, left, kids, right, hl⟩ := Loc.exists_of_mem (hL x (by simp))
      have h3 := (hr.node_get hl).2.2.1
      unfold nodeText nodeRange
      unfold nodeSpan at h3
      cases hx : t.nodes[x.id]? with
      | none => rw [hx] at h3; simp at h3
      | some lk =>
        rw [hx] at h3
        simp only [Option.map_some, Option.some.injEq] at h3
        simp only [Option.map_some, Span.range, h3]
        cases hk : fl.ik with
        | bits w => rfl
        | empty => rw [hzero hk]; simp [sliceOf]
  exact hcong _ hsub

example : ([0, 3, 1, 2, 4, 5, 6].filter (nodeIsEmpty lenTree.nodes)).flatMap
    (nodeText Flavor.default "abcdef".toList lenTree) = "abcdef".toList :=
  C32_lossless "abcdef".toList lenOps_built.1 lenOps_built.2.1 lenOps_built.2.2 (by decide)
    lenOps_built.1.represents.walk

/-! ## C33 -/

/-- Every node of a built tree has the place it has in the nested list. -/
theorem Built.loc (h : Built fl ops t F) {i : Nat} (hi : i < t.len) :
    ∃ anc left x kids right, x.id = i ∧ Loc F anc left x kids right ∧
      nodeSpan t.nodes i = some x.span ∧ hasChildren t.nodes i = ! kids.isNil := by
  have hr := h.represents
  have hmem : i ∈ F.ids := by
    rw [hr.perm.mem_iff]; simpa [Tree.len] using hi
  obtain ⟨anc, left, x, kids, right, rfl, hl⟩ := Loc.of_id hmem
  obtain ⟨_, _, h3, h4, _⟩ := hr.node_get hl
  exact ⟨anc, left, x, kids, right, rfl, hl, h3, h4⟩

/-- C33, first part (`_partial`: the part about parents covering their children is false, see
`C33_fails`, and proved for calls in order only, see below). Whatever the history, a node made by
`token_with(_, s)` or `close_at_with(_, _, s)` has exactly the span `s` in the end; a node made by
`open_with(_, s)` does not start after `s`, and has exactly the span `s` if it has no children. -/
theorem C33_explicit_spans_kept_partial (h : Built fl ops t F) {i : Nat} {op : Op α}
    (hi : (made ops (Sys.init.run fl ops).2)[i]? = some op) :
    (∀ d s, op = .tokenWith d s → nodeSpan t.nodes i = some s) ∧
    (∀ j d s, op = .closeAtWith j d s → nodeSpan t.nodes i = some s) ∧
    (∀ d s, op = .openWith d s → ∃ sp, nodeSpan t.nodes i = some sp ∧ sp.start ≤ s.start ∧
      (hasChildren t.nodes i = false → sp = s)) := by
  obtain ⟨n, os, h1, hs, hcur, ho, _, hlen, _, _⟩ := h.parts
  have hlog := LogInv.of_run h1
  have hlt : i < t.len := by
    rw [hlen, ← hlog.len, ← ho]; exact (List.getElem?_eq_some_iff.1 hi).1
  obtain ⟨anc, left, x, kids, right, rfl, hl, h3, h4⟩ := h.loc hlt
  have hk := (KeptInv.of_run h1).cur
  rw [hcur] at hk
  rw [ho] at hi
  obtain ⟨g1, g2, g3, _⟩ := (hk.loc hl).2 op hi
  refine ⟨fun d s e => by rw [h3, g1 d s e], fun j d s e => by rw [h3, g2 j d s e], ?_⟩
  intro d s e
  refine ⟨x.span, h3, (g3 d s e).1, ?_⟩
  intro hf
  apply (g3 d s e).2
  rw [h4] at hf
  cases kids <;> simp_all

def explicitOps : List (Op Nat) :=
  [.openWith 1 ⟨0, 9⟩, .checkpoint, .tokenWith 2 ⟨2, 4⟩, .closeAtWith 0 3 ⟨1, 5⟩, .close,
    .openWith 4 ⟨4, 6⟩, .close]

def explicitForest : Forest (Lab Nat) :=
  .cons ⟨0, 1, ⟨0, 4⟩⟩ (Forest.single ⟨2, 3, ⟨1, 5⟩⟩ (Forest.leaf ⟨1, 2, ⟨2, 4⟩⟩))
    (Forest.leaf ⟨3, 4, ⟨4, 6⟩⟩)

theorem explicitOps_built : Built Flavor.default explicitOps
    (Sys.init.run Flavor.default explicitOps).1.b.tree explicitForest :=
  ⟨_, _, rfl, rfl, rfl⟩

example : nodeSpan (Sys.init.run Flavor.default explicitOps).1.b.tree.nodes 2 = some ⟨1, 5⟩ :=
  (C33_explicit_spans_kept_partial explicitOps_built (i := 2) (op := .closeAtWith 0 3 ⟨1, 5⟩)
    rfl).2.1 0 3 ⟨1, 5⟩ rfl

/-- C33, second part (`_partial`: for histories whose calls are in order, `InOrder`). The span of
every node does not end before it starts and covers the spans of its children; siblings do not
overlap and are in order; and a node opened with `open_with(_, s)` covers `s`, provided that its
last child (if any) does not end before `s` does. -/
theorem C33_parents_cover_partial (h : Built fl ops t F) (hord : InOrder fl ops)
    {anc : List (Lab α)} {left kids right : Forest (Lab α)} {x : Lab α}
    (hl : Loc F anc left x kids right) :
    x.span.start ≤ x.span.stop ∧
    (∀ y ∈ kids.tops, x.span.start ≤ y.span.start ∧ y.span.stop ≤ x.span.stop) ∧
    (∀ y ∈ right.tops, x.span.stop ≤ y.span.start) ∧
    (∀ d s, (made ops (Sys.init.run fl ops).2)[x.id]? = some (.openWith d s) →
      (∀ y, kids.last? = some y → s.stop ≤ y.span.stop) →
      x.span.start ≤ s.start ∧ s.stop ≤ x.span.stop) := by
  obtain ⟨n, os, h1, hs, hcur, ho, _, hlen, _, _⟩ := h.parts
  obtain ⟨⟨s, hb, _⟩, _⟩ := WithinInv.of_run h1 hord
  rw [hcur] at hb
  have hb0 : Within 0 F n.cursor := by
    cases F with
    | nil => exact Nat.zero_le _
    | cons y k r => exact ⟨Nat.zero_le _, hb.2⟩
  obtain ⟨a, b, hw⟩ := hb0.loc hl
  obtain ⟨c, _, h2⟩ := hw.split
  obtain ⟨h3, h4, h5⟩ := h2
  have tops : ∀ (G : Forest (Lab α)) (a b : Nat), Within a G b → ∀ y ∈ G.tops,
      a ≤ y.span.start ∧ y.span.stop ≤ b := by
    intro G
    induction G with
    | nil => simp
    | cons z k r _ ih =>
      intro a b hg y hy
      rw [tops_cons, List.mem_cons] at hy
      have hz := hg.2.1.le
      have hr := hg.2.2.le
      rcases hy with rfl | hy
      · exact ⟨hg.1, hr⟩
      · obtain ⟨g1, g2⟩ := ih _ _ hg.2.2 y hy
        exact ⟨by have := hg.1; omega, g2⟩
  refine ⟨h4.le, tops _ _ _ h4, fun y hy => (tops _ _ _ h5 y hy).1, ?_⟩
  intro d s' hop hlast
  have hk := (KeptInv.of_run h1).cur
  rw [hcur] at hk
  rw [ho] at hop
  obtain ⟨_, _, g3, _⟩ := (hk.loc hl).2 _ hop
  obtain ⟨g4, g5⟩ := g3 d s' rfl
  refine ⟨g4, ?_⟩
  cases kids with
  | nil => rw [g5 rfl]; exact Nat.le_refl _
  | cons y k r =>
    obtain ⟨z, hz⟩ := last?_isSome (F := Forest.cons y k r) (by simp)
    exact Nat.le_trans (hlast z hz) (h4.last hz).2

def inOrderOps : List (Op Nat) :=
  [.token 0 2, .openWith 1 ⟨2, 7⟩, .tokenWith 2 ⟨3, 4⟩, .setCursor 5, .token 3 2, .close]

theorem inOrderOps_ok : InOrder Flavor.default inOrderOps := by
  intro pre op post e
  match pre, e with
  | [], e => cases e; trivial
  | [_], e => cases e; exact ⟨by decide, by decide⟩
  | [_, _], e => cases e; exact ⟨by decide, by decide⟩
  | [_, _, _], e => cases e; show (4 : Nat) ≤ 5; decide
  | [_, _, _, _], e => cases e; trivial
  | [_, _, _, _, _], e => cases e; trivial
  | _ :: _ :: _ :: _ :: _ :: _ :: rest, e => cases rest <;> simp [inOrderOps] at e

example : Built Flavor.default inOrderOps (Sys.init.run Flavor.default inOrderOps).1.b.tree
      (.cons ⟨0, 0, ⟨0, 2⟩⟩ .nil (Forest.single ⟨1, 1, ⟨2, 7⟩⟩
        (.cons ⟨2, 2, ⟨3, 4⟩⟩ .nil (Forest.leaf ⟨3, 3, ⟨5, 7⟩⟩)))) ∧
    InOrder Flavor.default inOrderOps :=
  ⟨⟨_, _, rfl, rfl, rfl⟩, inOrderOps_ok⟩

/-- C33, exactly: after every history, explicit spans in any order and checkpoints included, the
span of every node is the one the rule of `Spec/Grow.lean` works out from the calls that were made
and the spans of its children. -/
theorem C33_spans_exact (h : Built fl ops t F) {anc : List (Lab α)}
    {left kids right : Forest (Lab α)} {x : Lab α} (hl : Loc F anc left x kids right) :
    nodeSpan t.nodes x.id =
      some (spanRule (made ops (Sys.init.run fl ops).2) (bornSpans fl ops) x kids) := by
  obtain ⟨n, os, h1, hs, hcur, ho, _, hlen, _, _⟩ := h.parts
  have hg := (GrowInv.of_run h1).cur
  rw [hcur] at hg
  rw [(h.represents.node_get hl).2.2.1, ho, hg.loc hl]

/-- one node with an explicit span, a child token that starts earlier, a nested node that ends
before the end it was opened with, and a wrapper around both: the end is the one the nested node was
opened with -/
def growOps : List (Op Nat) :=
  [.openWith 1 ⟨4, 9⟩, .checkpoint, .tokenWith 2 ⟨2, 5⟩, .openWith 3 ⟨5, 8⟩, .token 4 1, .close,
    .closeAt 0 5, .close]

def growForest : Forest (Lab Nat) :=
  Forest.single ⟨0, 1, ⟨2, 8⟩⟩ (Forest.single ⟨4, 5, ⟨2, 6⟩⟩
    (.cons ⟨1, 2, ⟨2, 5⟩⟩ .nil (Forest.single ⟨2, 3, ⟨5, 6⟩⟩ (Forest.leaf ⟨3, 4, ⟨5, 6⟩⟩))))

theorem growOps_built : Built Flavor.default growOps
    (Sys.init.run Flavor.default growOps).1.b.tree growForest :=
  ⟨_, _, rfl, rfl, rfl⟩

example := C33_spans_exact growOps_built (x := ⟨0, 1, ⟨2, 8⟩⟩) (.root (left := .nil) rfl)

example : bornSpans Flavor.default growOps = [⟨4, 9⟩, ⟨2, 5⟩, ⟨5, 8⟩, ⟨5, 6⟩, ⟨6, 6⟩] := rfl

/-- C33, exactly when: the ends of the span of a node opened with the span `b` (by `open`, or by
`open_with`) are as follows. It starts at the earliest of the start of `b` and of the starts of those
children that were opened or had an explicit span, children put into a wrapper since included. It
ends where `b` ends if there are no children, where the last child ends if that was a token or made
by `close_at`, and at the later one of where the last child ends and was opened to end otherwise. -/
theorem C33_ends_exact (h : Built fl ops t F) {anc : List (Lab α)}
    {left kids right : Forest (Lab α)} {x : Lab α} (hl : Loc F anc left x kids right) {op : Op α}
    {b : Span} (hop : (made ops (Sys.init.run fl ops).2)[x.id]? = some op)
    (hopen : op.isOpen = true) (hb : (bornSpans fl ops)[x.id]? = some b) :
    let calls := made ops (Sys.init.run fl ops).2
    let ys := kids.unwrapped calls
    let moving := ys.filter fun y => ((calls[y.id]?).map Op.movesStart).getD false
    (x.span.start ≤ b.start ∧ (∀ y ∈ moving, x.span.start ≤ y.span.start) ∧
      (x.span.start = b.start ∨ ∃ y ∈ moving, x.span.start = y.span.start)) ∧
    (ys = [] → x.span.stop = b.stop) ∧
    (∀ pre y, ys = pre ++ [y] → ∀ o, calls[y.id]? = some o →
      (o.isOpen = false → x.span.stop = y.span.stop) ∧
      (o.isOpen = true → ∀ b', (bornSpans fl ops)[y.id]? = some b' →
        x.span.stop = max b'.stop y.span.stop)) := by
  obtain ⟨n, os, h1, hs, hcur, ho, _, hlen, _, _⟩ := h.parts
  have hg := (GrowInv.of_run h1).cur
  rw [hcur] at hg
  have hx := hg.loc hl
  rw [← ho] at hx
  have hw : wraps (made ops (Sys.init.run fl ops).2) x kids = false := by
    unfold wraps
    rw [hop]
    cases op <;> simp_all [Op.isOpen, Op.isCloseAt]
  simp only [spanRule, hw, hb, Option.getD_some] at hx
  intro calls ys moving
  refine ⟨?_, ?_, ?_⟩
  · have := fold_start (calls := calls) (born := bornSpans fl ops) ys b
    rw [hx]
    exact this
  · intro e
    rw [hx]
    show (ys.foldl _ b).stop = b.stop
    rw [e]; rfl
  · intro pre y e o hy
    have : x.span.stop = (growBy calls (bornSpans fl ops)
        (pre.foldl (growBy calls (bornSpans fl ops)) b) y).stop := by
      rw [hx]
      show (ys.foldl _ b).stop = _
      rw [e, List.foldl_append]; rfl
    rw [this]
    unfold growBy
    rw [hy]
    constructor
    · intro hno
      cases o <;> simp_all [Op.isOpen]
    · intro hyes b' hb'
      rw [hb']
      cases o <;> simp_all [Op.isOpen]

example := C33_ends_exact growOps_built (x := ⟨0, 1, ⟨2, 8⟩⟩) (.root (left := .nil) rfl)
  (op := .openWith 1 ⟨4, 9⟩) (b := ⟨4, 9⟩) rfl rfl rfl

/-- C33 does not hold in general: the span of a node opened with an explicit span shrinks when a
child is added, and does not cover a child made by `token` if the cursor was elsewhere. -/
theorem C33_fails :
    (∃ t, (Sys.init.run Flavor.default
        [Op.openWith 1 ⟨0, 10⟩, .tokenWith 2 ⟨2, 4⟩, .close]).1.b.build = .ok t ∧
      nodeSpan t.nodes 0 = some ⟨0, 4⟩) ∧
    (∃ t, (Sys.init.run Flavor.default
        [Op.openWith 1 ⟨5, 10⟩, .token 2 3, .close]).1.b.build = .ok t ∧
      nodeSpan t.nodes 0 = some ⟨5, 3⟩ ∧ nodeSpan t.nodes 1 = some ⟨0, 3⟩) :=
  ⟨⟨_, rfl, rfl⟩, ⟨_, rfl, rfl, rfl⟩⟩

/-! ## C34 -/

/-- C34: `join` is commutative, associative and idempotent, and it is the least span that covers
both: `a` covers `b` if it starts no later and ends no earlier. -/
theorem C34_join (a b c : Span) :
    a.join b = b.join a ∧ (a.join b).join c = a.join (b.join c) ∧ a.join a = a ∧
    (c.start ≤ (a.join b).start ∧ (a.join b).stop ≤ c.stop ↔
      (c.start ≤ a.start ∧ a.stop ≤ c.stop) ∧ (c.start ≤ b.start ∧ b.stop ≤ c.stop)) := by
  simp only [Span.join, Span.mk.injEq]
  refine ⟨⟨by omega, by omega⟩, ⟨by omega, by omega⟩, ?_, by omega⟩
  cases a; simp

/-- C34: `contains`, `is_empty`, `point`, `new`; `len` and `range` for an integer index. Points in
the join of non-empty spans: at least those of both. -/
theorem C34_queries (a b : Span) (i w : Nat) :
    (a.contains i = true ↔ a.start ≤ i ∧ i < a.stop) ∧
    (a.isEmpty = true ↔ a.start = a.stop) ∧
    (Span.point i).isEmpty = true ∧ (Span.point i).contains i = false ∧
    (Span.new a.start a.stop = a) ∧
    a.range (.bits w) = (a.start, a.stop) ∧
    (a.start ≤ a.stop → a.start + a.len (.bits w) = a.stop) ∧
    (a.stop ≤ a.start → a.len (.bits w) = 0) ∧
    (a.contains i = true ∨ b.contains i = true → (a.join b).contains i = true) := by
  refine ⟨?_, ?_, ?_, ?_, rfl, rfl, ?_, ?_, ?_⟩
  · simp [Span.contains]
  · simp only [Span.isEmpty, beq_iff_eq]; exact eq_comm
  · simp [Span.isEmpty, Span.point]
  · simp [Span.contains, Span.point]
  · simp only [Span.len, IndexKind.lenTo]; omega
  · simp only [Span.len, IndexKind.lenTo]; omega
  · simp only [Span.contains, Span.join, Bool.and_eq_true, decide_eq_true_eq]
    intro h
    refine ⟨decide_eq_true ?_, decide_eq_true ?_⟩
    · show min a.start b.start ≤ i; omega
    · show i < max a.stop b.stop; omega

/-- the join of two separate spans covers the gap as well, and an inverted span has length 0 -/
example : (Span.mk 1 3).join ⟨5, 8⟩ = ⟨1, 8⟩ ∧ (Span.mk 5 3).len (.bits 32) = 0 ∧
    (Span.mk 5 3).isEmpty = false := by decide

end Syntree
