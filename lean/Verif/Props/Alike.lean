import Verif.Proof.Alike
import Verif.Props.Unused
import Verif.Props.Range
import Verif.Props.Small

/-!
# Property C79: equal trees behave alike

Trees that are `==` can be told apart by the ids of their nodes only, and, where the library has the defects of
C14 and C38, by `last()` and by range queries.
-/

namespace Syntree

open Forest

variable {α : Type} {fl fl' : Flavor} {t t' : Tree α} {F F' : Forest (Lab α)}

theorem Made.content_of_eq [DecidableEq α] (h : Made fl t F) (h' : Made fl' t' F')
    (he : t.eq t' = some true) : F.content = F'.content := by
  rw [C39_eq_iff_same_forest h h'] at he
  simpa using he

theorem samePlace_of_zip {Z : Forest (Lab α × Lab α)} {o : Option (Lab α × Lab α)}
    (ho : ∀ z, o = some z → z ∈ Z.preorder) :
    SamePlace ((Z.map Prod.fst).preorder.map (·.id)) ((Z.map Prod.snd).preorder.map (·.id))
      (o.map (·.1.id)) (o.map (·.2.id)) := by
  cases o with
  | none => exact Or.inl ⟨rfl, rfl⟩
  | some z =>
    obtain ⟨p, hp, e⟩ := List.getElem_of_mem (ho z rfl)
    have e' : Z.preorder[p]? = some z := by rw [List.getElem?_eq_getElem hp, e]
    refine Or.inr ⟨p, z.1.id, z.2.id, rfl, rfl, ?_, ?_⟩
    · simp [Forest.preorder_mapped, e']
    · simp [Forest.preorder_mapped, e']

theorem tops_sub_preorder {β : Type} {x : β} : ∀ {F : Forest β}, x ∈ F.tops → x ∈ F.preorder
  | .cons y k r, h => by
    simp only [Forest.tops, List.mem_cons] at h
    simp only [Forest.preorder, List.mem_cons, List.mem_append]
    rcases h with h | h
    · exact Or.inl h
    · exact Or.inr (Or.inr (tops_sub_preorder h))

/-- C79, reading: walks over equal trees visit the same number of nodes, and the nodes at the same position of the
two walks have the same value and span, both have children or neither has, and `parent()`, `prev()`, `next()` and
`first()` lead to the same position again. -/
theorem C79_alike [DecidableEq α] (h : Made fl t F) (h' : Made fl' t' F') (he : t.eq t' = some true)
    {w w' : List Nat} (hw : Yields (Walk.next t.nodes) t.walk w)
    (hw' : Yields (Walk.next t'.nodes) t'.walk w') :
    w.length = w'.length ∧ SamePlace w w' t.firstNode t'.firstNode ∧
    ∀ {p i i' : Nat}, w[p]? = some i → w'[p]? = some i' →
      nodeValue t.nodes i = nodeValue t'.nodes i' ∧ nodeSpan t.nodes i = nodeSpan t'.nodes i' ∧
      hasChildren t.nodes i = hasChildren t'.nodes i' ∧
      SamePlace w w' (nodeParent t.nodes i) (nodeParent t'.nodes i') ∧
      SamePlace w w' (nodePrev t.nodes i) (nodePrev t'.nodes i') ∧
      SamePlace w w' (nodeNext t.nodes i) (nodeNext t'.nodes i') ∧
      SamePlace w w' (nodeFirst t.nodes i) (nodeFirst t'.nodes i') := by
  obtain ⟨Z, rfl, rfl, hZ⟩ := content_zip (h.content_of_eq h' he)
  have e1 := hw.det h.represents.walk
  have e2 := hw'.det h'.represents.walk
  subst e1 e2
  refine ⟨by simp [Forest.ids, Forest.preorder_mapped], ?_, ?_⟩
  · rw [(C17_links_match_place h).2.1, (C17_links_match_place h').2.1]
    have := samePlace_of_zip (Z := Z) (o := Z.tops.head?) (fun z hz => tops_sub_preorder
      (List.mem_of_mem_head? (by rw [hz]; rfl)))
    simpa [Forest.ids, Forest.tops_mapped, List.head?_map, Option.map_map, Function.comp_def] using this
  · intro p i i' hi hi'
    simp only [Forest.ids, Forest.preorder_mapped, List.map_map, List.getElem?_map, Option.map_eq_some_iff,
      Function.comp_apply] at hi hi'
    obtain ⟨z, hz, rfl⟩ := hi
    obtain ⟨z', hz', rfl⟩ := hi'
    rw [hz] at hz'
    cases hz'
    have hm : z ∈ Z.preorder := List.mem_of_getElem? hz
    obtain ⟨anc, left, kids, right, hl⟩ := Loc.exists_of_mem hm
    obtain ⟨_, a2, a3, a4, a5, a6, a7, a8, _⟩ := (C17_links_match_place h).2.2 (hl.mapped Prod.fst)
    obtain ⟨_, b2, b3, b4, b5, b6, b7, b8, _⟩ := (C17_links_match_place h').2.2 (hl.mapped Prod.snd)
    have hsib : ∀ y, y ∈ left.tops ∨ y ∈ kids.tops ∨ y ∈ right.tops → y ∈ Z.preorder := fun y hy => by
      apply hl.sibs_sub
      rw [preorder_append, List.mem_append]
      simp only [Forest.preorder, List.mem_cons, List.mem_append]
      rcases hy with hy | hy | hy
      · exact Or.inl (tops_sub_preorder hy)
      · exact Or.inr (Or.inr (Or.inl (tops_sub_preorder hy)))
      · exact Or.inr (Or.inr (Or.inr (tops_sub_preorder hy)))
    obtain ⟨c1, c2⟩ := hZ z hm
    refine ⟨by rw [a2, b2, c1], by rw [a3, b3, c2], ?_, ?_, ?_, ?_, ?_⟩
    · rw [Bool.eq_iff_iff, a8, b8]
      cases kids <;> simp [Forest.map]
    · have := samePlace_of_zip (Z := Z) (o := anc.head?)
        (fun y hy => hl.anc_mem y (List.mem_of_mem_head? (by rw [hy]; rfl)))
      rw [a4, b4]
      simpa [Forest.ids, List.head?_map, Option.map_map, Function.comp_def] using this
    · have := samePlace_of_zip (Z := Z) (o := left.tops.getLast?)
        (fun y hy => hsib y (Or.inl (List.mem_of_getLast? hy)))
      rw [a5, b5]
      simpa [Forest.ids, Forest.tops_mapped, List.getLast?_map, Option.map_map, Function.comp_def] using this
    · have := samePlace_of_zip (Z := Z) (o := right.tops.head?)
        (fun y hy => hsib y (Or.inr (Or.inr (List.mem_of_mem_head? (by rw [hy]; rfl)))))
      rw [a6, b6]
      simpa [Forest.ids, Forest.tops_mapped, List.head?_map, Option.map_map, Function.comp_def] using this
    · have := samePlace_of_zip (Z := Z) (o := kids.tops.head?)
        (fun y hy => hsib y (Or.inr (Or.inl (List.mem_of_mem_head? (by rw [hy]; rfl)))))
      rw [a7, b7]
      simpa [Forest.ids, Forest.tops_mapped, List.head?_map, Option.map_map, Function.comp_def] using this

/-- C79, printing: equal trees are printed alike, with and without the source text. -/
theorem C79_printed_alike [DecidableEq α] (h : Made fl t F) (h' : Made fl' t' F')
    (he : t.eq t' = some true) (hik : fl.ik = fl'.ik) (showIndex : Nat → String) (debugData : α → String)
    (debugStr : String → String) (sourceGet : Nat × Nat → Option String) :
    t.print showIndex debugData debugStr = t'.print showIndex debugData debugStr ∧
    t.printWithSource fl.ik showIndex debugData debugStr sourceGet =
      t'.printWithSource fl'.ik showIndex debugData debugStr sourceGet := by
  have e := h.content_of_eq h' he
  rw [C46_print h, C46_print h', C46_print_with_source h, C46_print_with_source h']
  have key : ∀ src : Span → Option String, ∀ d (x y : Lab α) b, x.data = y.data → x.span = y.span →
      lineOf showIndex debugData debugStr src d x b = lineOf showIndex debugData debugStr src d y b := by
    intro src d x y b h1 h2
    simp only [lineOf, h1, h2]
  rw [linesOf_content (key _) 0 e, hik, linesOf_content (key _) 0 e]
  exact ⟨rfl, rfl⟩

/-- C79, editing: the same change set has the same effect on equal trees, be their nodes numbered alike or not.
Either both calls fail with `Overflow`, or both succeed, and a walk over the two results lists the very same nodes,
including their ids; so the results are equal and have the same links (C77). -/
theorem C79_modified_alike [DecidableEq α] (h : Made fl t F) (h' : Made fl t' F')
    (he : t.eq t' = some true) (c : ChangeSet) :
    (c.modify fl t = .error .overflow ∧ c.modify fl t' = .error .overflow) ∨
    ∃ u u', c.modify fl t = .ok u ∧ c.modify fl t' = .ok u' ∧ u.listing = u'.listing ∧ u.span = u'.span ∧
      u.eq u' = some true ∧ u.nodes = u'.nodes := by
  have e := h.content_of_eq h' he
  obtain ⟨G, cut, h1, _, h3, h4⟩ := C51_modify_exact h c
  obtain ⟨G', cut', _, h2', h3', h4'⟩ := C51_modify_exact h' c
  obtain ⟨H, k1, k2⟩ := h1.content e
  obtain ⟨rfl, rfl⟩ := h2' _ _ k1
  have el := alike_literal k2
  have es := alike_size k2
  rw [el, es] at h3 h4
  by_cases hf : H.literal.Fits fl ∧ (cut = true → H.size < 2 ^ fl.width - 1)
  · obtain ⟨u, a1, a2, a3, _⟩ := h3 hf
    obtain ⟨u', b1, b2, b3, _⟩ := h3' hf
    have er : G.relaid fl.ik = H.relaid fl.ik := by simp only [Forest.relaid, el]
    rw [er] at a2
    have m1 : Made fl u _ := .edited h a1 a2
    have m2 : Made fl u' _ := .edited h' b1 b2
    refine Or.inr ⟨u, u', a1, b1, a2.trans b2.symm, a3.trans b3.symm, ?_, ?_⟩
    · rw [C39_eq_iff_same_forest m1 m2]; simp
    · exact (C77_listing_determines_links m1 m2 (a2.trans b2.symm)).1
  · exact Or.inl ⟨h4 hf, h4' hf⟩

theorem enclosing_alike {Z : Forest (Lab α × Lab α)}
    (hr : ∀ z ∈ Z.preorder, nodeSpan t.nodes z.1.id = nodeSpan t'.nodes z.2.id) (stop : Nat)
    {z : Lab α × Lab α} (hz : z ∈ Z.preorder) {anc : List (Lab α × Lab α)} (ha : ∀ a ∈ anc, a ∈ Z.preorder) :
    ∃ y ∈ Z.preorder, enclosing t stop z.1.id (anc.map (·.1.id)) = y.1.id ∧
      enclosing t' stop z.2.id (anc.map (·.2.id)) = y.2.id := by
  have e1 : (anc.map (·.1.id)).find? (fun p => (nodeSpan t.nodes p).any (fun sp => stop ≤ sp.stop)) =
      (anc.find? (fun p => (nodeSpan t.nodes p.1.id).any (fun sp => stop ≤ sp.stop))).map (·.1.id) := by
    rw [List.find?_map]; rfl
  have e2 : (anc.map (·.2.id)).find? (fun p => (nodeSpan t'.nodes p).any (fun sp => stop ≤ sp.stop)) =
      (anc.find? (fun p => (nodeSpan t.nodes p.1.id).any (fun sp => stop ≤ sp.stop))).map (·.2.id) := by
    rw [List.find?_map]
    congr 1
    clear e1
    induction anc with
    | nil => rfl
    | cons a l ih =>
      have hb : (nodeSpan t'.nodes a.2.id).any (fun sp => decide (stop ≤ sp.stop)) =
          (nodeSpan t.nodes a.1.id).any (fun sp => decide (stop ≤ sp.stop)) := by
        rw [hr a (ha a (List.mem_cons_self ..))]
      have ih := ih (fun b hb => ha b (List.mem_cons_of_mem _ hb))
      simp only [List.find?_cons, Function.comp_apply, hb, ih]
  unfold enclosing
  rw [e1, e2]
  cases hf : anc.find? (fun p => (nodeSpan t.nodes p.1.id).any (fun sp => decide (stop ≤ sp.stop))) with
  | some y => exact ⟨y, ha y (List.mem_of_find?_eq_some hf), rfl, rfl⟩
  | none =>
    simp only [Option.map_none, List.getLast?_map]
    cases hg : anc.getLast? with
    | none => exact ⟨z, hz, rfl, rfl⟩
    | some y => exact ⟨y, ha y (List.mem_of_getLast? hg), rfl, rfl⟩

/-- C79, range queries: if the calls that built two equal trees have let the cursor place the nodes, and no token
was lost for want of pointers, then every query finds the node at the same position of the walk, or nothing, in
both trees. (Without this it is false: `C38_fails_token_with` and `C38_fails_modify` are about equal trees.) -/
theorem C79_found_alike [DecidableEq α] {ops ops' : List (Op α)} {search search' : List TreeIndex → Nat → Search}
    (h : Built fl ops t F) (h' : Built fl' ops' t' F')
    (hc : ∀ op ∈ ops, op.cursorDriven = true) (hc' : ∀ op ∈ ops', op.cursorDriven = true)
    (hsp : Spare fl t.len (Sys.init.run fl ops).2) (hsp' : Spare fl' t'.len (Sys.init.run fl' ops').2)
    (hk : fl.keepIdx = true) (hk' : fl'.keepIdx = true) (hik : fl.ik = fl'.ik)
    (hsearch : SearchSpec search) (hsearch' : SearchSpec search') (he : t.eq t' = some true)
    {w w' : List Nat} (hw : Yields (Walk.next t.nodes) t.walk w)
    (hw' : Yields (Walk.next t'.nodes) t'.walk w') (s e : Nat) :
    SameFound w w' (t.nodeWithSpan search ⟨s, e⟩) (t'.nodeWithSpan search' ⟨s, e⟩) := by
  have m : Made fl t F := .built h
  have m' : Made fl' t' F' := .built h'
  obtain ⟨Z, rfl, rfl, hZ⟩ := content_zip (m.content_of_eq m' he)
  have e1 := hw.det m.represents.walk
  have e2 := hw'.det m'.represents.walk
  subst e1 e2
  have hspans : ∀ z ∈ Z.preorder, nodeSpan t.nodes z.1.id = nodeSpan t'.nodes z.2.id := by
    intro z hz
    obtain ⟨anc, left, kids, right, hl⟩ := Loc.exists_of_mem hz
    rw [((C17_links_match_place m).2.2 (hl.mapped Prod.fst)).2.2.1,
      ((C17_links_match_place m').2.2 (hl.mapped Prod.snd)).2.2.1, (hZ z hz).2]
  have hstop : t.getSpan.stop = t'.getSpan.stop := by
    have c1 := (h.canonical hc hsp).2.2.1
    have c2 := (h'.canonical hc' hsp').2.2.1
    have el := alike_literal (m.content_of_eq m' he)
    rw [Tree.getSpan, Tree.getSpan, c1, c2, el, hik]
  rcases h.query hc hsp hk hsearch s e with ⟨q1, q2⟩ | ⟨q1, anc, left, x, right, hl, q2, q3, q4, q5⟩
  · rcases h'.query hc' hsp' hk' hsearch' s e with ⟨_, r2⟩ | ⟨r1, _⟩
    · exact Or.inl ⟨q2, r2⟩
    · omega
  · rcases h'.query hc' hsp' hk' hsearch' s e with ⟨r1, _⟩ | ⟨r1, anc', left', x', right', hl', r2, r3, r4, r5⟩
    · omega
    · obtain ⟨A, L, z, K, R, hz, rfl, rfl, rfl, hK, rfl⟩ := hl.unmap
      have hK' : K = .nil := by cases K with
        | nil => rfl
        | cons => cases hK
      subst hK'
      have hm := hz.mem
      have hl2 : Loc (Z.map Prod.snd) (A.map Prod.snd) (L.map Prod.snd) z.2 .nil (R.map Prod.snd) :=
        hz.mapped Prod.snd
      obtain ⟨g1, _, g3, g4, _⟩ := m'.represents.node_get hl2
      have hid : z.2.id = x'.id := by
        refine r4 z.2.id ?_ ?_ ?_
        · have := m'.represents.perm.mem_iff.1 (List.mem_map_of_mem (f := (·.id)) hl2.mem)
          simpa [Tree.len] using this
        · rw [g4]; rfl
        · rw [g3, ← (hZ z hm).2]; simp [Span.contains, q2, q3]
      have hx : z.2 = x' := inj_of_nodup_map m'.represents.nodup hl2.mem hl'.mem hid
      subst hx
      have hu := Forest.Loc.unique m'.represents.nodup hl2 hl' rfl
      obtain ⟨y, y1, y2, y3⟩ := enclosing_alike hspans e hm hz.anc_mem
      rw [q5, r5, ← hu.1]
      have := samePlace_of_zip (Z := Z) (o := some y) (fun _ e => by cases e; exact y1)
      rcases this with ⟨e1, _⟩ | ⟨p, i, i', e1, e2, e3, e4⟩
      · simp at e1
      · refine Or.inr ⟨p, i, i', ?_, ?_, e3, e4⟩
        · simp only [Option.map_some, Option.some.injEq] at e1
          rw [← e1, List.map_map]; exact congrArg Got.some y2
        · simp only [Option.map_some, Option.some.injEq] at e2
          rw [← e2, List.map_map]; exact congrArg Got.some y3

/-! Replacing values. -/

theorem Forest.map_mem_congr {β γ : Type} {f g : β → γ} : ∀ {Z : Forest β}, (∀ z ∈ Z.preorder, f z = g z) →
    Z.map f = Z.map g
  | .nil, _ => rfl
  | .cons x k r, h => by
    simp only [Forest.preorder, List.mem_cons, List.mem_append] at h
    simp only [Forest.map, h x (Or.inl rfl), Forest.map_mem_congr (fun z hz => h z (Or.inr (Or.inl hz))),
      Forest.map_mem_congr (fun z hz => h z (Or.inr (Or.inr hz)))]

theorem Forest.map_mapped {β γ δ : Type} (f : β → γ) (g : γ → δ) : ∀ Z : Forest β,
    (Z.map f).map g = Z.map (fun z => g (f z))
  | .nil => rfl
  | .cons x k r => by simp only [Forest.map, Forest.map_mapped f g k, Forest.map_mapped f g r]

/-- The label with its value replaced if it is the one of node `i`. -/
def Lab.put (i : Nat) (v : α) (x : Lab α) : Lab α := if x.id = i then { x with data := v } else x

theorem Made.put (h : Made fl t F) {i : Nat} (hi : i < t.len) (v : α) :
    Made fl (t.replace i v).1 (F.map (Lab.put i v)) := by
  refine .replaced h ?_
  rw [(C40_replace_listing hi v).2, h.represents.listing, Option.map_some, Forest.listing, Forest.listing,
    depths_map, List.map_map, List.map_map]
  congr 1
  apply List.map_congr_left
  intro p _
  simp only [Function.comp_apply, Lab.put]
  split <;> rfl

/-- C79, replacing: the same value put into the nodes at the same position of two equal trees leaves them equal. -/
theorem C79_replaced_alike [DecidableEq α] (h : Made fl t F) (h' : Made fl' t' F') (he : t.eq t' = some true)
    {w w' : List Nat} (hw : Yields (Walk.next t.nodes) t.walk w)
    (hw' : Yields (Walk.next t'.nodes) t'.walk w') {p i i' : Nat} (hi : w[p]? = some i)
    (hi' : w'[p]? = some i') (v : α) :
    (t.replace i v).1.eq (t'.replace i' v).1 = some true ∧ (t.replace i v).2 = (t'.replace i' v).2 := by
  have hv := ((C79_alike h h' he hw hw').2.2 hi hi').1
  have l1 : i < t.len := ((C06_walk_once_in_order h).2.2 i).1 (by
    rw [(C06_walk_once_in_order h).1.det hw]; exact List.mem_of_getElem? hi)
  have l2 : i' < t'.len := ((C06_walk_once_in_order h').2.2 i').1 (by
    rw [(C06_walk_once_in_order h').1.det hw']; exact List.mem_of_getElem? hi')
  refine ⟨?_, by rw [(C40_replace_listing l1 v).1, (C40_replace_listing l2 v).1, hv]⟩
  rw [C39_eq_iff_same_forest (h.put l1 v) (h'.put l2 v)]
  obtain ⟨Z, rfl, rfl, hZ⟩ := content_zip (h.content_of_eq h' he)
  have e1 := hw.det h.represents.walk
  have e2 := hw'.det h'.represents.walk
  subst e1 e2
  simp only [Forest.ids, Forest.preorder_mapped, List.map_map, List.getElem?_map, Option.map_eq_some_iff,
    Function.comp_apply] at hi hi'
  obtain ⟨z, hz, rfl⟩ := hi
  obtain ⟨z', hz', rfl⟩ := hi'
  rw [hz] at hz'
  cases hz'
  have hm : z ∈ Z.preorder := List.mem_of_getElem? hz
  have n1 := h.represents.nodup
  have n2 := h'.represents.nodup
  simp only [Forest.ids, Forest.preorder_mapped, List.map_map] at n1 n2
  simp only [Option.some.injEq, decide_eq_true_eq, Forest.content, Forest.map_mapped]
  apply Forest.map_mem_congr
  intro y hy
  obtain ⟨d1, d2⟩ := hZ y hy
  by_cases hyz : y = z
  · subst hyz
    simp [Lab.put, d2]
  · have a1 : y.1.id ≠ z.1.id := fun e => hyz (inj_of_nodup_map n1 hy hm e)
    have a2 : y.2.id ≠ z.2.id := fun e => hyz (inj_of_nodup_map n2 hy hm e)
    simp [Lab.put, a1, a2, d1, d2]

/-! ### Two trees that are equal, with different ids -/

/-- A pair wrapped late. -/
def lateOps : List (Op Nat) := [.checkpoint, .token 2 1, .token 3 2, .closeAt 0 4]

/-- The same pair in a node that was opened first. -/
def earlyOps : List (Op Nat) := [.open 4, .token 2 1, .token 3 2, .close]

def lateTree : Tree Nat := (Sys.init.run Flavor.default lateOps).1.b.tree
def earlyTree : Tree Nat := (Sys.init.run Flavor.default earlyOps).1.b.tree

theorem late_built : Built Flavor.default lateOps lateTree
    (.cons ⟨2, 4, ⟨0, 3⟩⟩ (.cons ⟨0, 2, ⟨0, 1⟩⟩ .nil (leaf ⟨1, 3, ⟨1, 3⟩⟩)) .nil) := ⟨_, _, rfl, rfl, rfl⟩

theorem early_built : Built Flavor.default earlyOps earlyTree
    (.cons ⟨0, 4, ⟨0, 3⟩⟩ (.cons ⟨1, 2, ⟨0, 1⟩⟩ .nil (leaf ⟨2, 3, ⟨1, 3⟩⟩)) .nil) := ⟨_, _, rfl, rfl, rfl⟩

theorem late_eq_early : lateTree.eq earlyTree = some true := by
  rw [C39_eq_iff_same_forest (.built late_built) (.built early_built)]; rfl

theorem late_walk : Yields (Walk.next lateTree.nodes) lateTree.walk [2, 0, 1] :=
  (C06_walk_once_in_order (.built late_built)).1

theorem early_walk : Yields (Walk.next earlyTree.nodes) earlyTree.walk [0, 1, 2] :=
  (C06_walk_once_in_order (.built early_built)).1

example : SamePlace [2, 0, 1] [0, 1, 2] (nodeParent lateTree.nodes 0) (nodeParent earlyTree.nodes 1) :=
  ((C79_alike (.built late_built) (.built early_built) late_eq_early late_walk early_walk).2.2
    (p := 1) rfl rfl).2.2.2.1

example : lateTree.print toString toString id = earlyTree.print toString toString id :=
  (C79_printed_alike (.built late_built) (.built early_built) late_eq_early rfl _ _ _ (fun _ => none)).1

/-- Id 1 is the second child of the first tree, and the first one of the second tree. -/
example : ∃ u u', (ChangeSet.new.remove 1).modify Flavor.default lateTree = .ok u ∧
    (ChangeSet.new.remove 1).modify Flavor.default earlyTree = .ok u' ∧ u.nodes = u'.nodes := by
  rcases C79_modified_alike (.built late_built) (.built early_built) late_eq_early (ChangeSet.new.remove 1) with
    ⟨h, _⟩ | ⟨u, u', h1, h2, _, _, _, h3⟩
  · exact absurd h (by
      have : ∃ u, (ChangeSet.new.remove 1).modify Flavor.default lateTree = .ok u := ⟨_, rfl⟩
      obtain ⟨u, hu⟩ := this
      rw [hu]; simp)
  · exact ⟨u, u', h1, h2, h3⟩

example : SameFound [2, 0, 1] [0, 1, 2] (lateTree.nodeWithSpan binarySearch ⟨1, 2⟩)
    (earlyTree.nodeWithSpan binarySearch ⟨1, 2⟩) :=
  C79_found_alike late_built early_built (by decide) (by decide) (Or.inl (by decide)) (Or.inl (by decide))
    rfl rfl rfl C35_search_contract C35_search_contract late_eq_early late_walk early_walk 1 2

example : (lateTree.replace 0 9).1.eq (earlyTree.replace 1 9).1 = some true :=
  (C79_replaced_alike (.built late_built) (.built early_built) late_eq_early late_walk early_walk
    (p := 1) rfl rfl 9).1

/-- `last()` is not among the methods of `C79_alike`: on the tree with the wrapped pair it is one of the pair
(C14), on the equal tree it is the only root. -/
theorem C79_last_differs : ∃ (t t' : Tree Nat) (F F' : Forest (Lab Nat)),
    Made Flavor.default t F ∧ Made Flavor.default t' F' ∧ t.eq t' = some true ∧
    Yields (Walk.next t.nodes) t.walk [2, 0, 1] ∧ Yields (Walk.next t'.nodes) t'.walk [0, 1, 2] ∧
    t.lastNode = some 1 ∧ t'.lastNode = some 0 :=
  ⟨_, _, _, _, .built late_built, .built early_built, late_eq_early, late_walk, early_walk, rfl, rfl⟩

end Syntree
