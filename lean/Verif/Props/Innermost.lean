import Verif.Props.Range
import Verif.Props.Apart

/-!
# C101: range queries give the innermost node, and agree with each other

`Yields (Ancestors.next t.nodes) (nodeAncestors r) (r :: above)` says that `above` are the proper
ancestors of `r`, closest first.
-/

namespace Syntree

open Forest

variable {α : Type} {fl : Flavor} {ops : List (Op α)} {t : Tree α} {F : Forest (Lab α)}
  {search : List TreeIndex → Nat → Search}

/-- What `enclosing` picks is the token if it is a root, and otherwise a proper ancestor, the
ancestors of which are those that follow it. -/
theorem enclosing_split (t : Tree α) (e i : Nat) (anc : List Nat) (hne : anc ≠ []) :
    ∃ pre post, anc = pre ++ enclosing t e i anc :: post ∧
      (∀ p ∈ pre, (nodeSpan t.nodes p).any (fun sp => decide (e ≤ sp.stop)) = false) ∧
      ((nodeSpan t.nodes (enclosing t e i anc)).any (fun sp => decide (e ≤ sp.stop)) = false →
        post = []) := by
  unfold enclosing
  cases hf : anc.find? (fun p => (nodeSpan t.nodes p).any (fun sp => decide (e ≤ sp.stop))) with
  | some q =>
    obtain ⟨hq, as, bs, rfl, has⟩ := List.find?_eq_some_iff_append.1 hf
    refine ⟨as, bs, rfl, fun p hp => by simpa using has p hp, fun h => ?_⟩
    rw [h] at hq; cases hq
  | none =>
    rw [List.find?_eq_none] at hf
    cases hl : anc.getLast? with
    | none => exact absurd (List.getLast?_eq_none_iff.1 hl) hne
    | some z =>
      obtain ⟨ys, rfl⟩ := List.getLast?_eq_some_iff.1 hl
      refine ⟨ys, [], by simp, fun p hp => ?_, fun _ => rfl⟩
      have := hf p (by simp [hp])
      simpa using this

theorem loc_ancestor_kids (pre : List (Lab α)) : ∀ {post : List (Lab α)}
    {left kids right : Forest (Lab α)} {x y : Lab α},
    Loc F (pre ++ y :: post) left x kids right → ∃ l k r, Loc F post l y k r ∧ k.isNil = false := by
  induction pre with
  | nil =>
    intro post left kids right x y hl
    obtain ⟨l, r, hq⟩ := hl.parent
    exact ⟨_, _, _, hq, by cases left <;> rfl⟩
  | cons q pre ih =>
    intro post left kids right x y hl
    obtain ⟨l, r, hq⟩ := hl.parent
    exact ih hq

/-- The ancestors of an ancestor are the rest of the list, and it has children. -/
theorem Built.ancestors_suffix (h : Built fl ops t F) {i q : Nat} (hi : i < t.len)
    {pre post : List Nat}
    (ha : Yields (Ancestors.next t.nodes) (nodeAncestors i) (i :: (pre ++ q :: post))) :
    q < t.len ∧ hasChildren t.nodes q = true ∧
      Yields (Ancestors.next t.nodes) (nodeAncestors q) (q :: post) := by
  have hr := h.represents
  obtain ⟨anc, left, x, kids, right, rfl, hl, _, _⟩ := h.loc hi
  have := ha.det (hr.ancestors hl)
  simp only [List.cons.injEq, true_and] at this
  obtain ⟨a, b, e1, e2, e3⟩ := List.map_eq_append_iff.1 this.symm
  obtain ⟨y, c, e4, e5, e6⟩ := List.map_eq_cons_iff.1 e3
  subst e1 e4
  obtain ⟨l, k, r, hy, hk⟩ := loc_ancestor_kids a hl
  obtain ⟨g1, g2, g3, g4, _⟩ := hr.node_get hy
  subst e5 e6
  refine ⟨?_, by rw [g4, hk]; rfl, hr.ancestors hy⟩
  have : y.id ∈ F.ids := List.mem_map_of_mem hy.mem
  rw [hr.perm.mem_iff] at this
  simpa [Tree.len] using this

theorem Built.ancestors_ex (h : Built fl ops t F) {i : Nat} (hi : i < t.len) :
    ∃ anc, Yields (Ancestors.next t.nodes) (nodeAncestors i) (i :: anc) := by
  obtain ⟨anc, left, x, kids, right, rfl, hl, _, _⟩ := h.loc hi
  exact ⟨_, h.represents.ancestors hl⟩

theorem Tiled.stop_le {T : Nat} {anc : List (Lab α)} : ∀ {left kids right : Forest (Lab α)}
    {x : Lab α}, Tiled 0 F T → Loc F anc left x kids right → x.span.stop ≤ T := by
  induction anc with
  | nil =>
    intro left kids right x h hl
    obtain ⟨a, b, h1, h2, _⟩ := h.loc hl
    obtain ⟨c, h4, h5⟩ := h1.split
    obtain ⟨_, rfl⟩ := h2 rfl
    exact h5.2.2.2.le
  | cons p anc ih =>
    intro left kids right x h hl
    obtain ⟨l, r, hp⟩ := hl.parent
    exact Nat.le_trans (h.ancestors hl p (by simp)).2 (ih h hp)

theorem Built.span_le (h : Built fl ops t F) (hc : ∀ op ∈ ops, op.cursorDriven = true)
    (hsp : Spare fl t.len (Sys.init.run fl ops).2) {p : Nat} {sp : Span} (hp : p < t.len)
    (hps : nodeSpan t.nodes p = some sp) : sp.stop ≤ t.getSpan.stop := by
  obtain ⟨ht, hspan, _⟩ := h.lens hc hsp
  obtain ⟨anc, left, x, kids, right, rfl, hl, hx, _⟩ := h.loc hp
  rw [hps] at hx
  cases hx
  have := ht.stop_le hl
  simpa [Tree.getSpan, hspan] using this

/-- C101: if only the cursor placed the nodes (and no token was lost), and there is a node `p` with
children that contains the range `s..e`, then `node_with_span(s..e)` (and `node_with_range`, if the ends fit the index type) returns a node with children
that contains the range, and this is the innermost one: `p` is this node or above it. -/
theorem C101_innermost (h : Built fl ops t F) (hc : ∀ op ∈ ops, op.cursorDriven = true)
    (hsp : Spare fl t.len (Sys.init.run fl ops).2) (hk : fl.keepIdx = true)
    (hsearch : SearchSpec search) {s e p : Nat} {sp : Span} (hp : p < t.len)
    (hkids : hasChildren t.nodes p = true) (hps : nodeSpan t.nodes p = some sp)
    (h1 : sp.start ≤ s) (h2 : s < sp.stop) (h3 : e ≤ sp.stop) :
    ∃ r sr above, t.nodeWithSpan search ⟨s, e⟩ = .some r ∧ hasChildren t.nodes r = true ∧
      nodeSpan t.nodes r = some sr ∧ sr.start ≤ s ∧ s < sr.stop ∧ e ≤ sr.stop ∧
      Yields (Ancestors.next t.nodes) (nodeAncestors r) (r :: above) ∧ p ∈ r :: above ∧
      (fl.ik.fromUsize s = some s → fl.ik.fromUsize e = some e →
        t.nodeWithRange fl search s e = .some r) := by
  have hs : s < t.getSpan.stop := Nat.lt_of_lt_of_le h2 (h.span_le hc hsp hp hps)
  obtain ⟨i, anc, c1, c2, c3, c4, c5, c6, c7⟩ :=
    C35_nearest_enclosing h hc hsp hk hsearch (e := e) hs
  obtain ⟨ap, hap⟩ := h.ancestors_ex hp
  obtain ⟨si, hsi, hsi'⟩ : ∃ si, nodeSpan t.nodes i = some si ∧ si.contains s = true := by
    cases hq : nodeSpan t.nodes i with
    | none => rw [hq] at c3; cases c3
    | some si => rw [hq] at c3; exact ⟨si, rfl, c3⟩
  have hne : p ≠ i := fun e => by rw [e, c2] at hkids; cases hkids
  have hpa : p ∈ anc := by
    rcases C83_overlap h hc hsp hp c1 hne hps hsi (at_ := s) (by simp [Span.contains, h1, h2]) hsi'
      hap c5 with g | g
    · exact g
    · obtain ⟨pre, post, rfl⟩ := List.append_of_mem g
      rw [(h.ancestors_suffix hp hap).2.1] at c2
      cases c2
  have hok : (nodeSpan t.nodes p).any (fun sp => decide (e ≤ sp.stop)) = true := by
    rw [hps]; simp [h3]
  obtain ⟨pre, post, d1, d2, d3⟩ := enclosing_split t e i anc (List.ne_nil_of_mem hpa)
  rw [d1] at c5 hpa
  obtain ⟨f1, f2, f3⟩ := h.ancestors_suffix c1 c5
  have hin : p ∈ enclosing t e i anc :: post := by
    rcases List.mem_append.1 hpa with g | g
    · rw [d2 p g] at hok; cases hok
    · exact g
  have hee : (nodeSpan t.nodes (enclosing t e i anc)).any (fun sp => decide (e ≤ sp.stop)) = true := by
    cases hcon : (nodeSpan t.nodes (enclosing t e i anc)).any (fun sp => decide (e ≤ sp.stop)) with
    | true => rfl
    | false =>
    rw [d3 hcon] at hin
    rw [List.mem_singleton.1 hin, hcon] at hok
    cases hok
  obtain ⟨_, _, _, _, r, sr, _, _, _, _, _, _, _, _, k1, k2, k3, k4, _⟩ :=
    C37_contains_range_iff h hc hsp hk hsearch (e := e) hs
  rw [c6] at k1
  cases k1
  rw [k2] at hee
  exact ⟨_, sr, post, c6, f2, k2, k3, k4, by simpa using hee, f3, hin, c7⟩

/-- C101: a query for a larger range gives a node at or above the one for the smaller range, as
long as the larger range does not leave the root it starts in (that is, as long as the answer
contains its end). -/
theorem C101_monotone (h : Built fl ops t F) (hc : ∀ op ∈ ops, op.cursorDriven = true)
    (hsp : Spare fl t.len (Sys.init.run fl ops).2) (hk : fl.keepIdx = true)
    (hsearch : SearchSpec search) {s s' e e' r' : Nat} {sr' : Span} (h1 : s' ≤ s) (h2 : s < e')
    (h3 : e ≤ e') (hq : t.nodeWithSpan search ⟨s', e'⟩ = .some r')
    (hr' : nodeSpan t.nodes r' = some sr') (h4 : e' ≤ sr'.stop) :
    ∃ r above, t.nodeWithSpan search ⟨s, e⟩ = .some r ∧
      Yields (Ancestors.next t.nodes) (nodeAncestors r) (r :: above) ∧ r' ∈ r :: above := by
  have hs' : s' < t.getSpan.stop := by
    refine Nat.lt_of_not_le fun hcon => ?_
    rw [((C36_none_iff_outside h hc hsp hk hsearch s' e').1).2 (by omega)] at hq
    cases hq
  obtain ⟨_, _, _, _, r, sr, _, _, _, _, _, _, _, _, k1, k2, k3, k4, _⟩ :=
    C37_contains_range_iff h hc hsp hk hsearch (e := e') hs'
  rw [hq] at k1
  cases k1
  rw [hr'] at k2
  cases k2
  obtain ⟨i, anc, c1, c2, c3, c4, c5, c6, _⟩ :=
    C35_nearest_enclosing h hc hsp hk hsearch (e := e') hs'
  rw [hq] at c6
  cases c6
  by_cases hanc : anc = []
  · subst hanc
    have hi : enclosing t e' i [] = i := rfl
    rw [hi] at hr' hq ⊢
    have hs : s < t.getSpan.stop :=
      Nat.lt_of_lt_of_le (Nat.lt_of_lt_of_le h2 h4) (h.span_le hc hsp c1 hr')
    obtain ⟨j, anc', g1, g2, g3, g4, g5, g6, _⟩ :=
      C35_nearest_enclosing h hc hsp hk hsearch (e := e) hs
    have hij : i = j := g4 i c1 c2 (by rw [hr']; simp [Span.contains]; omega)
    subst hij
    have := g5.det c5
    simp only [List.cons.injEq, true_and] at this
    subst this
    exact ⟨i, [], g6, c5, by simp⟩
  · obtain ⟨pre, post, d1, d2, d3⟩ := enclosing_split t e' i anc hanc
    rw [d1] at c5
    obtain ⟨f1, f2, f3⟩ := h.ancestors_suffix c1 c5
    obtain ⟨r, _, above, m1, _, _, _, _, _, m2, m3, _⟩ := C101_innermost h hc hsp hk hsearch (s := s)
      (e := e) f1 f2 hr' (by omega) (by omega) (by omega)
    exact ⟨r, above, m1, m2, m3⟩

/-- C101: for one start, the later the end the further up the answer, whatever the ends; and all
starts inside of one childless node give the same answer. -/
theorem C101_one_start (h : Built fl ops t F) (hc : ∀ op ∈ ops, op.cursorDriven = true)
    (hsp : Spare fl t.len (Sys.init.run fl ops).2) (hk : fl.keepIdx = true)
    (hsearch : SearchSpec search) :
    (∀ {s e e' : Nat}, s < t.getSpan.stop → e ≤ e' → ∃ r r' above,
      t.nodeWithSpan search ⟨s, e⟩ = .some r ∧ t.nodeWithSpan search ⟨s, e'⟩ = .some r' ∧
      Yields (Ancestors.next t.nodes) (nodeAncestors r) (r :: above) ∧ r' ∈ r :: above) ∧
    (∀ {i s s' e : Nat} {si : Span}, i < t.len → hasChildren t.nodes i = false →
      nodeSpan t.nodes i = some si → si.contains s = true → si.contains s' = true →
      t.nodeWithSpan search ⟨s, e⟩ = t.nodeWithSpan search ⟨s', e⟩) := by
  refine ⟨fun {s e e'} hs he => ?_, fun {i s s' e si} hi hk' hsi h1 h2 => ?_⟩
  · obtain ⟨i, anc, c1, c2, c3, c4, c5, c6, _⟩ :=
      C35_nearest_enclosing h hc hsp hk hsearch (e := e) hs
    obtain ⟨i', anc', b1, b2, b3, b4, b5, b6, _⟩ :=
      C35_nearest_enclosing h hc hsp hk hsearch (e := e') hs
    have hii : i' = i := c4 i' b1 b2 b3
    subst hii
    have := b5.det c5
    simp only [List.cons.injEq, true_and] at this
    subst this
    by_cases hanc : anc' = []
    · subst hanc
      exact ⟨_, _, [], c6, b6, c5, by simp [enclosing]⟩
    · obtain ⟨pre, post, d1, d2, d3⟩ := enclosing_split t e i' anc' hanc
      obtain ⟨pre', post', d1', d2', d3'⟩ := enclosing_split t e' i' anc' hanc
      rw [d1] at c5
      refine ⟨_, _, post, c6, b6, (h.ancestors_suffix c1 c5).2.2, ?_⟩
      generalize hr' : enclosing t e' i' anc' = r' at *
      generalize hr : enclosing t e i' anc' = r at *
      have hmem : r' ∈ pre ++ r :: post := by rw [← d1, d1']; simp
      rcases List.mem_append.1 hmem with g | g
      · have hno := d2 r' g
        have hno' : (nodeSpan t.nodes r').any (fun sp => decide (e' ≤ sp.stop)) = false := by
          cases hq : nodeSpan t.nodes r' with
          | none => rfl
          | some q =>
            rw [hq] at hno
            simp only [Option.any_some, decide_eq_false_iff_not] at hno ⊢
            omega
        rw [d3' hno'] at d1'
        rw [d1] at d1'
        have := congrArg List.getLast? d1'
        simp only [List.getLast?_append, List.getLast?_cons, List.getLast?_nil, Option.getD_none,
          Option.some_or, Option.some.injEq] at this
        cases hp : post.getLast? with
        | none => rw [hp] at this; simp only [Option.getD_none] at this; simp [this]
        | some z =>
          rw [hp] at this
          simp only [Option.getD_some] at this
          subst this
          exact List.mem_cons_of_mem _ (List.mem_of_getLast? hp)
      · exact g
  · have hle := h.span_le hc hsp hi hsi
    have h1' := h1
    have h2' := h2
    simp only [Span.contains, Bool.and_eq_true, decide_eq_true_eq] at h1' h2'
    obtain ⟨j, anc, c1, c2, c3, c4, c5, c6, _⟩ :=
      C35_nearest_enclosing h hc hsp hk hsearch (s := s) (e := e) (by omega)
    obtain ⟨j', anc', b1, b2, b3, b4, b5, b6, _⟩ :=
      C35_nearest_enclosing h hc hsp hk hsearch (s := s') (e := e) (by omega)
    have e1 := c4 i hi hk' (by rw [hsi]; exact h1)
    have e2 := b4 i hi hk' (by rw [hsi]; exact h2)
    subst e1 e2
    have := b5.det c5
    simp only [List.cons.injEq, true_and] at this
    subst this
    rw [c6, b6]

/-- Node 3 (`0..3`) of `lenTree`, below node 0 (`0..5`), contains the range `1..2`. -/
example := C101_innermost lenOps_built.1 lenOps_built.2.1 lenOps_built.2.2 rfl C35_search_contract
  (s := 1) (e := 2) (p := 0) (sp := ⟨0, 5⟩) (by decide) rfl rfl (by decide) (by decide) (by decide)

/-- The query for `0..4` gives node 0, and that for `1..2` node 3, which is below it. -/
example := C101_monotone lenOps_built.1 lenOps_built.2.1 lenOps_built.2.2 rfl C35_search_contract
  (s' := 0) (s := 1) (e := 2) (e' := 4) (r' := 0) (sr' := ⟨0, 5⟩) (by decide) (by decide)
  (by decide) rfl rfl (by decide)

example : lenTree.nodeWithSpan binarySearch ⟨1, 2⟩ = .some 3 ∧
    lenTree.nodeWithSpan binarySearch ⟨0, 4⟩ = .some 0 := ⟨rfl, rfl⟩

example := (C101_one_start lenOps_built.1 lenOps_built.2.1 lenOps_built.2.2 rfl
  C35_search_contract).1 (s := 1) (e := 2) (e' := 4) (by decide) (by decide)

/-- C101: without the condition that the larger range stays inside of the root it starts in, the
answers need not be related: with the roots `0..3` and `3..6`, the query for `4..5` gives the second
one, and that for `1..5` the first one. -/
theorem C101_monotone_fails : ∃ (ops : List (Op Nat)) (t : Tree Nat) (F : Forest (Lab Nat)),
    Built Flavor.default ops t F ∧ (∀ op ∈ ops, op.cursorDriven = true) ∧
    t.nodeWithSpan binarySearch ⟨4, 5⟩ = .some 1 ∧
    t.nodeWithSpan binarySearch ⟨1, 5⟩ = .some 0 ∧
    nodeParent t.nodes 0 = none ∧ nodeParent t.nodes 1 = none :=
  ⟨[.token 1 3, .token 2 3], _, _, ⟨_, _, rfl, rfl, rfl⟩, by decide, rfl, rfl, rfl, rfl⟩

end Syntree
