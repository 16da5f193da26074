import Verif.Proof.Index
import Verif.Props.Spans
import Verif.Model.Edit

/-!
# Properties C35 – C38: range queries

The standard library's `binary_search_by` is a parameter `search` of the model; the theorems hold
for every function with its documented contract `SearchSpec`. `binarySearch` is the implementation
of the standard library, and `C35_search_contract` says that it has the contract.
-/

namespace Syntree

variable {α : Type} {fl : Flavor} {ops : List (Op α)} {t : Tree α} {F : Forest (Lab α)}
  {search : List TreeIndex → Nat → Search}

open Forest

/-- The algorithm of the standard library has the documented contract. -/
theorem C35_search_contract : SearchSpec binarySearch := binarySearch_spec

/-- Tokens have no children. -/
theorem Built.token_childless (h : Built fl ops t F) {i : Nat} {op : Op α}
    (hi : (made ops (Sys.init.run fl ops).2)[i]? = some op) (ht : op.isToken = true) :
    i < t.len ∧ hasChildren t.nodes i = false := by
  obtain ⟨n, os, h1, hs, hcur, ho, _, hlen, _, _⟩ := h.parts
  have hlog := LogInv.of_run h1
  have hlt : i < t.len := by
    rw [hlen, ← hlog.len, ← ho]; exact (List.getElem?_eq_some_iff.1 hi).1
  refine ⟨hlt, ?_⟩
  obtain ⟨anc, left, x, kids, right, rfl, hl, _, h4⟩ := h.loc hlt
  have hk := (KeptInv.of_run h1).cur
  rw [hcur] at hk
  rw [ho] at hi
  obtain ⟨_, _, _, g4⟩ := (hk.loc hl).2 op hi
  rw [h4, g4 ht]; rfl

theorem textLen_take_le (calls : List (Op α)) {i j : Nat} (h : i ≤ j) :
    textLen fl (calls.take i) ≤ textLen fl (calls.take j) := by
  have : calls.take j = calls.take i ++ (calls.take j).drop i := by
    have := List.take_append_drop i (calls.take j)
    rw [List.take_take, Nat.min_eq_left h] at this
    exact this.symm
  rw [this, textLen_append]; omega

theorem textLen_take_succ {calls : List (Op α)} {k : Nat} {op : Op α} (h : calls[k]? = some op) :
    textLen fl (calls.take (k + 1)) = textLen fl (calls.take k) + op.len fl := by
  rw [List.take_add_one, h, textLen_append]; simp [textLen]

theorem len_isToken {op : Op α} (h : op.len fl ≠ 0) : op.isToken = true := by
  cases op <;> simp_all [Op.len, Op.isToken]

/-- Where a query ends up, and what is known about the token. -/
theorem Built.query (h : Built fl ops t F) (hc : ∀ op ∈ ops, op.cursorDriven = true)
    (hsp : Spare fl t.len (Sys.init.run fl ops).2) (hk : fl.keepIdx = true)
    (hsearch : SearchSpec search) (s e : Nat) :
    (t.getSpan.stop ≤ s ∧ t.nodeWithSpan search ⟨s, e⟩ = .none) ∨
    (s < t.getSpan.stop ∧ ∃ anc left x right, Loc F anc left x .nil right ∧
      x.span.start ≤ s ∧ s < x.span.stop ∧
      (∀ j, j < t.len → hasChildren t.nodes j = false →
        (nodeSpan t.nodes j).any (·.contains s) = true → j = x.id) ∧
      t.nodeWithSpan search ⟨s, e⟩ = .some (enclosing t e x.id (anc.map (·.id)))) := by
  have hr := h.represents
  obtain ⟨_, hspan, _⟩ := h.lens hc hsp
  obtain ⟨n, os, h1, hs, hcur, ho, htree, hlen, _, _⟩ := h.parts
  have hsp' : Spare fl n.count os := by rw [← hlen, ← ho]; exact hsp
  have hix := indexes_of_run hk h1 hc hsp'
  rw [htree] at hix
  have hfind := hsearch.find (L := t.indexes) (by rw [hix]; exact ixFrom_sorted _ _ _) s
  have hpos := ixFrom_find (fl := fl) 0 0 s (made ops os) (Nat.zero_le _)
  rw [Tree.getSpan, hspan, ho]
  rw [hix] at hfind
  simp only [Tree.nodeWithSpan, Tree.nodeWithSpanInternal]
  rw [hix]
  rw [hfind]
  cases hq : (ixFrom fl 0 0 (made ops os)).find? (fun x => decide (s < x.index)) with
  | none =>
    rw [hq] at hpos
    left
    simp only at hpos ⊢
    exact ⟨by omega, trivial⟩
  | some ix =>
    rw [hq] at hpos
    right
    obtain ⟨k, op, e1, e2, e3, e4, e5⟩ := hpos
    simp only [Nat.zero_add] at e1 e4 e5
    have hmade : (made ops (Sys.init.run fl ops).2)[k]? = some op := by rw [ho]; exact e2
    obtain ⟨hlt, hleaf⟩ := h.token_childless hmade (len_isToken e3)
    have hspk := C29_leaf_span h hc hsp hmade hleaf
    simp only [ho] at hspk
    obtain ⟨anc, left, x, kids, right, rfl, hl, h3, h4⟩ := h.loc hlt
    have hkn : kids = .nil := by
      rw [h4] at hleaf; cases kids <;> simp_all
    subst hkn
    rw [h3] at hspk
    have hxs := Option.some.inj hspk
    refine ⟨?_, anc, left, x, right, hl, ?_, ?_, ?_, ?_⟩
    · have h5 := textLen_take_le (fl := fl) (made ops os) (i := x.id + 1)
        (j := (made ops os).length) (by have := (List.getElem?_eq_some_iff.1 e2).1; omega)
      rw [List.take_length, textLen_take_succ e2] at h5
      omega
    · rw [hxs]; exact e4
    · rw [hxs]; exact e5
    · intro j hj hjl hcon
      obtain ⟨opj, hopj⟩ : ∃ opj, (made ops os)[j]? = some opj := by
        have : j < (made ops os).length := by rw [(LogInv.of_run h1).len, ← hlen]; exact hj
        exact ⟨_, List.getElem?_eq_getElem this⟩
      have hspj := C29_leaf_span h hc hsp (by rw [ho]; exact hopj) hjl
      simp only [ho] at hspj
      rw [hspj] at hcon
      simp only [Option.any_some, Span.contains, Bool.and_eq_true, decide_eq_true_eq] at hcon
      rcases Nat.lt_trichotomy j x.id with hlt' | heq | hgt
      · exfalso
        have h5 := textLen_take_le (fl := fl) (made ops os) (i := j + 1) (j := x.id) hlt'
        rw [textLen_take_succ hopj] at h5
        omega
      · exact heq
      · exfalso
        have h5 := textLen_take_le (fl := fl) (made ops os) (i := x.id + 1) (j := j) hgt
        rw [textLen_take_succ e2] at h5
        omega
    · simp only [e1]
      have hget : t.get x.id = some x.id := by
        have hlt2 : x.id < t.nodes.length := hlt
        simp [Tree.get, nodeAt, List.getElem?_eq_getElem hlt2]
      rw [hget]
      have hd := hl.depth_lt
      have hsz := hr.size
      simp only [Forest.size] at hd
      exact hr.climb e anc hl (by omega)

/-! ## C35 -/

/-- C35: for every position `s` inside of the tree there is exactly one childless node `i` whose
span contains it, and `node_with_span(s..e)` returns `enclosing t e i anc`, where `anc` are the
proper ancestors of `i`: the closest of them that ends at or after `e`, or if there is none the
outermost one (`i` itself if it is a root). `node_with_range` returns the same if `s` and `e` are
representable. -/
theorem C35_nearest_enclosing (h : Built fl ops t F) (hc : ∀ op ∈ ops, op.cursorDriven = true)
    (hsp : Spare fl t.len (Sys.init.run fl ops).2) (hk : fl.keepIdx = true)
    (hsearch : SearchSpec search) {s e : Nat} (hs : s < t.getSpan.stop) :
    ∃ i anc, i < t.len ∧ hasChildren t.nodes i = false ∧
      (nodeSpan t.nodes i).any (·.contains s) = true ∧
      (∀ j, j < t.len → hasChildren t.nodes j = false →
        (nodeSpan t.nodes j).any (·.contains s) = true → j = i) ∧
      Yields (Ancestors.next t.nodes) (nodeAncestors i) (i :: anc) ∧
      t.nodeWithSpan search ⟨s, e⟩ = .some (enclosing t e i anc) ∧
      (fl.ik.fromUsize s = some s → fl.ik.fromUsize e = some e →
        t.nodeWithRange fl search s e = .some (enclosing t e i anc)) := by
  have hr := h.represents
  rcases h.query hc hsp hk hsearch s e with ⟨h1, _⟩ | ⟨_, anc, left, x, right, hl, h1, h2, h3, h4⟩
  · omega
  · obtain ⟨g1, _, g3, g4, _⟩ := hr.node_get hl
    refine ⟨x.id, anc.map (·.id), ?_, ?_, ?_, h3, hr.ancestors hl, h4, ?_⟩
    · have := hr.perm.mem_iff.1 (List.mem_map_of_mem (f := (·.id)) hl.mem)
      simpa [Tree.len] using this
    · rw [g4]; rfl
    · rw [g3]; simp [Span.contains, h1, h2]
    · intro e1 e2
      simp only [Tree.nodeWithRange, e1, e2]
      exact h4

/-- On the demo tree (text `abc`,`de`,`f`, see `lenForest`): a query for `3..5` finds the token
`3..5` with id 5, and returns its parent, node 0. -/
example : lenTree.nodeWithRange Flavor.default binarySearch 3 5 = .some 0 ∧
    lenTree.nodeWithRange Flavor.default binarySearch 1 2 = .some 3 := ⟨rfl, rfl⟩

example := C35_nearest_enclosing lenOps_built.1 lenOps_built.2.1 lenOps_built.2.2 rfl
  C35_search_contract (s := 1) (e := 4) (by decide)

/-! ## C36 -/

/-- C36: a query is `None` if and only if `s` is at or beyond the end of the tree, or an end of the
range is not representable in the index type. -/
theorem C36_none_iff_outside (h : Built fl ops t F) (hc : ∀ op ∈ ops, op.cursorDriven = true)
    (hsp : Spare fl t.len (Sys.init.run fl ops).2) (hk : fl.keepIdx = true)
    (hsearch : SearchSpec search) (s e : Nat) :
    (t.nodeWithSpan search ⟨s, e⟩ = .none ↔ t.getSpan.stop ≤ s) ∧
    (t.nodeWithRange fl search s e = .none ↔
      (t.range fl.ik).2 ≤ s ∨ fl.ik.fromUsize s = none ∨ fl.ik.fromUsize e = none) ∧
    t.nodeWithSpan search ⟨s, e⟩ ≠ .diverge := by
  have key : ∀ s e, (t.nodeWithSpan search ⟨s, e⟩ = .none ↔ t.getSpan.stop ≤ s) ∧
      t.nodeWithSpan search ⟨s, e⟩ ≠ .diverge := by
    intro s e
    rcases h.query hc hsp hk hsearch s e with ⟨h1, h2⟩ | ⟨h1, _, _, _, _, _, _, _, _, h4⟩
    · rw [h2]; simp [h1]
    · rw [h4]; simp; omega
  refine ⟨(key s e).1, ?_, (key s e).2⟩
  have hrange : (t.range fl.ik).2 = t.getSpan.stop := by
    obtain ⟨_, hspan, _⟩ := h.lens hc hsp
    simp only [Tree.range, Span.range, Tree.getSpan]
    cases hik : fl.ik with
    | bits w => rfl
    | empty =>
      rw [hspan]
      have : ∀ l : List (Op α), (l.map (Op.len fl)).sum = 0 := by
        intro l
        induction l with
        | nil => rfl
        | cons op l ih =>
          simp only [List.map_cons, List.sum_cons, ih, Nat.add_zero]
          cases op <;> simp [Op.len, hik, IndexKind.lenIsEmpty]
      simp [textLen, this, IndexKind.asUsize]
  rw [hrange]
  unfold Tree.nodeWithRange
  cases h1 : fl.ik.fromUsize s with
  | none => simp
  | some s' =>
    cases h2 : fl.ik.fromUsize e with
    | none => simp
    | some e' =>
      simp only
      have := (key s' e').1
      simp only [Tree.nodeWithSpan] at this
      rw [this]
      cases hik : fl.ik with
      | bits w =>
        rw [hik] at h1
        simp only [IndexKind.fromUsize] at h1
        split at h1
        · simp only [Option.some.injEq] at h1; subst h1; simp
        · simp at h1
      | empty =>
        rw [← hrange, hik]
        simp [Tree.range, Span.range, IndexKind.asUsize]

example : lenTree.nodeWithRange Flavor.default binarySearch 6 6 = .none ∧
    lenTree.nodeWithRange Flavor.default binarySearch 5 (2 ^ 32) = .none ∧
    lenTree.nodeWithRange Flavor.default binarySearch 5 100 = .some 6 := ⟨rfl, rfl, rfl⟩

example := C36_none_iff_outside lenOps_built.1 lenOps_built.2.1 lenOps_built.2.2 rfl
  C35_search_contract 5 9

/-! ## C37 -/

theorem Tiled.ancestors {T : Nat} {anc : List (Lab α)} {left kids right : Forest (Lab α)}
    {x : Lab α} (h : Tiled 0 F T) (hl : Loc F anc left x kids right) :
    ∀ p ∈ anc, p.span.start ≤ x.span.start ∧ x.span.stop ≤ p.span.stop := by
  induction anc generalizing left x kids right with
  | nil => simp
  | cons q anc ih =>
    obtain ⟨l, r, hq⟩ := hl.parent
    obtain ⟨a, b, h1, _, h3⟩ := h.loc hl
    obtain ⟨c, h4, h5⟩ := h1.split
    have h6 := h3 q anc rfl
    have h7 := h4.le
    have h8 := h5.1
    have h9 := h5.2.2.2.le
    have hqx : q.span.start ≤ x.span.start ∧ x.span.stop ≤ q.span.stop := by
      rw [h6]; simp only; omega
    intro p hp
    rcases List.mem_cons.1 hp with rfl | hp
    · exact hqx
    · have := ih hq p hp; omega

/-- C37 (`_partial`: the documented contract holds if the token at `s` has a proper ancestor that
ends at or after `e`; in particular if the tree has one root with children and `e` is not beyond the
end of the tree. See `C37_fails` for the rest). The node returned contains the whole range. -/
theorem C37_contains_range_partial (h : Built fl ops t F)
    (hc : ∀ op ∈ ops, op.cursorDriven = true)
    (hsp : Spare fl t.len (Sys.init.run fl ops).2) (hk : fl.keepIdx = true)
    (hsearch : SearchSpec search) {s e : Nat} (hs : s < t.getSpan.stop) :
    ∃ i anc, (nodeSpan t.nodes i).any (·.contains s) = true ∧ hasChildren t.nodes i = false ∧
      Yields (Ancestors.next t.nodes) (nodeAncestors i) (i :: anc) ∧
      ((∃ p ∈ anc, (nodeSpan t.nodes p).any (fun sp => e ≤ sp.stop) = true) →
        ∃ r sp, t.nodeWithSpan search ⟨s, e⟩ = .some r ∧ nodeSpan t.nodes r = some sp ∧
          sp.start ≤ s ∧ s < sp.stop ∧ e ≤ sp.stop) := by
  have hr := h.represents
  obtain ⟨ht, _, _⟩ := h.lens hc hsp
  rcases h.query hc hsp hk hsearch s e with ⟨h1, _⟩ | ⟨_, anc, left, x, right, hl, h1, h2, h3, h4⟩
  · omega
  · obtain ⟨g1, _, g3, g4, _⟩ := hr.node_get hl
    refine ⟨x.id, anc.map (·.id), ?_, by rw [g4]; rfl, hr.ancestors hl, ?_⟩
    · rw [g3]; simp [Span.contains, h1, h2]
    · intro ⟨p, hp, hpe⟩
      unfold enclosing at h4
      cases hf : (anc.map (·.id)).find?
          (fun p => (nodeSpan t.nodes p).any (fun sp => decide (e ≤ sp.stop))) with
      | none =>
        rw [List.find?_eq_none] at hf
        exact absurd hpe (hf p hp)
      | some q =>
        rw [hf] at h4
        have hq1 := List.mem_of_find?_eq_some hf
        have hq2 := List.find?_some hf
        obtain ⟨y, hy, rfl⟩ := List.mem_map.1 hq1
        have hyl : ∃ anc' l k r, Loc F anc' l y k r := by
          clear hf h4 hq1 hq2 g1 g3 g4 h1 h2 h3 hpe hp
          induction anc generalizing left x right with
          | nil => simp at hy
          | cons q anc ih =>
            have : ∀ {anc : List (Lab α)} {left kids right : Forest (Lab α)} {x : Lab α},
                Loc F anc left x kids right → ∀ y ∈ anc, ∃ anc' l k r, Loc F anc' l y k r := by
              intro anc
              induction anc with
              | nil => simp
              | cons q anc ih =>
                intro left kids right x hl y hy
                obtain ⟨l, r, hq⟩ := hl.parent
                rcases List.mem_cons.1 hy with rfl | hy
                · exact ⟨_, _, _, _, hq⟩
                · exact ih hq y hy
            exact this hl y hy
        obtain ⟨_, _, _, _, hyl⟩ := hyl
        have hys := (hr.node_get hyl).2.2.1
        have hcov := ht.ancestors hl y hy
        rw [hys] at hq2
        simp only [Option.any_some, decide_eq_true_eq] at hq2
        exact ⟨y.id, y.span, h4, hys, by omega, by omega, hq2⟩

example := C37_contains_range_partial lenOps_built.1 lenOps_built.2.1 lenOps_built.2.2 rfl
  C35_search_contract (s := 1) (e := 4) (by decide)

/-- node 1 (`0..3`) has the ancestors 3 (`0..3`) and 0 (`0..5`) -/
example : Yields (Ancestors.next lenTree.nodes) (nodeAncestors 1) [1, 3, 0] ∧
    (nodeSpan lenTree.nodes 0).any (fun sp => decide (4 ≤ sp.stop)) = true :=
  ⟨.item rfl (.item rfl (.item rfl (.done rfl))), rfl⟩

theorem loc_ancestor (pre : List (Lab α)) : ∀ {post : List (Lab α)}
    {left kids right : Forest (Lab α)} {x y : Lab α},
    Loc F (pre ++ y :: post) left x kids right → ∃ l k r, Loc F post l y k r := by
  induction pre with
  | nil =>
    intro post left kids right x y hl
    obtain ⟨l, r, hq⟩ := hl.parent
    exact ⟨_, _, _, hq⟩
  | cons q pre ih =>
    intro post left kids right x y hl
    obtain ⟨l, r, hq⟩ := hl.parent
    exact ih hq

/-- C37, exactly: for every position `s` inside of the tree, let `i` be the childless node at `s`
(the only one, by C35) and `root` the outermost one of `i` and its ancestors. The node returned
always contains `s`, and it contains the whole range if and only if `root` does, that is unless
the range leaves the root that it begins in. -/
theorem C37_contains_range_iff (h : Built fl ops t F)
    (hc : ∀ op ∈ ops, op.cursorDriven = true)
    (hsp : Spare fl t.len (Sys.init.run fl ops).2) (hk : fl.keepIdx = true)
    (hsearch : SearchSpec search) {s e : Nat} (hs : s < t.getSpan.stop) :
    ∃ i anc root rs r sp, (nodeSpan t.nodes i).any (·.contains s) = true ∧
      hasChildren t.nodes i = false ∧
      Yields (Ancestors.next t.nodes) (nodeAncestors i) (i :: anc) ∧
      (i :: anc).getLast? = some root ∧ nodeParent t.nodes root = none ∧
      nodeSpan t.nodes root = some rs ∧ rs.start ≤ s ∧ s < rs.stop ∧
      t.nodeWithSpan search ⟨s, e⟩ = .some r ∧ nodeSpan t.nodes r = some sp ∧
      sp.start ≤ s ∧ s < sp.stop ∧ (e ≤ sp.stop ↔ e ≤ rs.stop) := by
  have hr := h.represents
  obtain ⟨ht, _, _⟩ := h.lens hc hsp
  rcases h.query hc hsp hk hsearch s e with ⟨h1, _⟩ | ⟨_, anc, left, x, right, hl, h1, h2, h3, h4⟩
  · omega
  obtain ⟨g1, _, g3, g4, _⟩ := hr.node_get hl
  have hx : (nodeSpan t.nodes x.id).any (·.contains s) = true := by
    rw [g3]; simp [Span.contains, h1, h2]
  have hsp : ∀ y ∈ anc, nodeSpan t.nodes y.id = some y.span ∧ y.span.start ≤ s ∧ s < y.span.stop := by
    intro y hy
    have := ht.ancestors hl y hy
    obtain ⟨pre, post, rfl⟩ := List.append_of_mem hy
    obtain ⟨_, _, _, hyl⟩ := loc_ancestor pre hl
    exact ⟨(hr.node_get hyl).2.2.1, by omega, by omega⟩
  have hmono : ∀ (y z : Lab α), y ∈ anc → anc.getLast? = some z → y.span.stop ≤ z.span.stop := by
    intro y z hy hz
    obtain ⟨pre, post, rfl⟩ := List.append_of_mem hy
    obtain ⟨_, _, _, hyl⟩ := loc_ancestor pre hl
    rw [List.getLast?_append, List.getLast?_cons, Option.some_or] at hz
    cases hp : post.getLast? with
    | none =>
      rw [hp] at hz
      have := Option.some.inj hz
      simp only [Option.getD_none] at this
      rw [this]; exact Nat.le_refl _
    | some z' =>
      rw [hp] at hz
      have := Option.some.inj hz
      simp only [Option.getD_some] at this
      subst this
      exact (ht.ancestors hyl z' (List.mem_of_getLast? hp)).2
  cases hlast : anc.getLast? with
  | none =>
    have hnil : anc = [] := List.getLast?_eq_none_iff.1 hlast
    subst hnil
    refine ⟨x.id, [], x.id, x.span, x.id, x.span, hx, by rw [g4]; rfl, hr.ancestors hl, rfl,
      hr.node_parent hl, g3, h1, h2, h4, g3, h1, h2, Iff.rfl⟩
  | some z =>
    have hz := List.mem_of_getLast? hlast
    obtain ⟨z1, z2, z3⟩ := hsp z hz
    obtain ⟨ys, hys⟩ := List.getLast?_eq_some_iff.1 hlast
    obtain ⟨_, _, _, hzl⟩ := loc_ancestor (post := []) ys (hys ▸ hl)
    refine ⟨x.id, anc.map (·.id), z.id, z.span, ?_⟩
    have hgl : (x.id :: anc.map (·.id)).getLast? = some z.id := by
      rw [List.getLast?_cons, List.getLast?_map, hlast]; rfl
    unfold enclosing at h4
    cases hf : (anc.map (·.id)).find?
        (fun p => (nodeSpan t.nodes p).any (fun sp => decide (e ≤ sp.stop))) with
    | none =>
      rw [hf] at h4
      simp only [List.getLast?_map, hlast, Option.map_some, Option.getD_some] at h4
      exact ⟨z.id, z.span, hx, by rw [g4]; rfl, hr.ancestors hl, hgl, hr.node_parent hzl, z1, z2, z3,
        h4, z1, z2, z3, Iff.rfl⟩
    | some q =>
      rw [hf] at h4
      have hq1 := List.mem_of_find?_eq_some hf
      have hq2 := List.find?_some hf
      obtain ⟨y, hy, rfl⟩ := List.mem_map.1 hq1
      obtain ⟨y1, y2, y3⟩ := hsp y hy
      rw [y1] at hq2
      simp only [Option.any_some, decide_eq_true_eq] at hq2
      have := hmono y z hy hlast
      exact ⟨y.id, y.span, hx, by rw [g4]; rfl, hr.ancestors hl, hgl, hr.node_parent hzl, z1, z2, z3,
        h4, y1, y2, y3, by omega⟩

example := C37_contains_range_iff lenOps_built.1 lenOps_built.2.1 lenOps_built.2.2 rfl
  C35_search_contract (s := 1) (e := 6) (by decide)

/-- C37 does not hold in general: on a tree with two root tokens `0..3` and `3..6` the query `1..5`
returns the first token, which does not contain the range; and on a tree with one root `0..3` the
query `1..100` returns that root, although no node contains the range. -/
theorem C37_fails :
    (∃ t : Tree Nat, (Sys.init.run Flavor.default [.token 1 3, .token 2 3]).1.b.build = .ok t ∧
      t.nodeWithRange Flavor.default binarySearch 1 5 = .some 0 ∧
      nodeSpan t.nodes 0 = some ⟨0, 3⟩) ∧
    (∃ t : Tree Nat, (Sys.init.run Flavor.default
        [.open 0, .token 1 3, .close]).1.b.build = .ok t ∧
      t.nodeWithRange Flavor.default binarySearch 1 100 = .some 0 ∧
      nodeSpan t.nodes 0 = some ⟨0, 3⟩) :=
  ⟨⟨_, rfl, rfl, rfl⟩, ⟨_, rfl, rfl, rfl⟩⟩

/-! ## C38 -/

/-- C38 does not hold: `token(1, 3)` and `token_with(1, 0..3)` on a new builder give equal trees,
but the query `0..3` finds the token of the first one only. -/
theorem C38_fails_token_with :
    ∃ t t' : Tree Nat, (Sys.init.run Flavor.default [.token 1 3]).1.b.build = .ok t ∧
      (Sys.init.run Flavor.default [.tokenWith 1 ⟨0, 3⟩]).1.b.build = .ok t' ∧
      t.eq t' = some true ∧
      t.nodeWithRange Flavor.default binarySearch 0 3 = .some 0 ∧
      t'.nodeWithRange Flavor.default binarySearch 0 3 = .none :=
  ⟨_, _, rfl, rfl, rfl, rfl, rfl⟩

/-- C38 does not hold for `ChangeSet::modify` either: without any change it returns an equal tree
(two root tokens), whose answers to queries are different. -/
theorem C38_fails_modify :
    ∃ t t' : Tree Nat, (Sys.init.run Flavor.default [.token 1 3, .token 2 2]).1.b.build = .ok t ∧
      ChangeSet.new.modify Flavor.default t = .ok t' ∧
      t.eq t' = some true ∧
      t.nodeWithRange Flavor.default binarySearch 0 1 = .some 0 ∧
      t'.nodeWithRange Flavor.default binarySearch 0 1 = .some 1 :=
  ⟨_, _, rfl, rfl, rfl, rfl, rfl⟩

end Syntree
