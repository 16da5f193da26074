import Verif.Proof.CalcError
import Verif.Proof.Alike

/-!
# C97: the errors of the calculator example point at the text

`Truthful`: `Spec/CalcError.lean`.
-/

namespace Syntree.Calc

open Forest

theorem Cut.get {source : Text} {F : Forest (Syn × Span)} (h : Cut source F) :
    ∀ y ∈ F.preorder, ∃ text, source.get (y.2.range Flavor.default.ik) = some text := by
  induction F with
  | nil => intro y hy; simp [preorder] at hy
  | cons x k r ihk ih =>
    obtain ⟨⟨h1, h2, h3⟩, h4, h5⟩ := h
    intro y hy
    simp only [preorder, List.mem_cons, List.mem_append] at hy
    rcases hy with rfl | hy | hy
    · exact get_of_boundaries h1 h2 h3
    · exact ihk h4 y hy
    · exact ih h5 y hy

theorem OpIn.nodes {t : Tree Syn} {F : Forest (Lab Syn)} {g : Bool} (hr : Represents g t F)
    {anc : List (Lab Syn)} {left kids right : Forest (Lab Syn)} {x : Lab Syn}
    (hl : Loc F anc left x kids right) {what : Syn} (h : OpIn (branches kids.content) what) :
    HasOperator t.nodes x.id what := by
  obtain ⟨p, hp, y, k, r, e, rfl⟩ := h
  rw [branches_content, List.mem_map] at hp
  obtain ⟨q, hq, rfl⟩ := hp
  obtain ⟨L, R, e'⟩ := branches_loc q hq
  have hc := Loc.child hl e'
  cases hk : q.2 with
  | nil => simp [contentOf, hk, content, Forest.map] at e
  | cons z kz rz =>
    simp only [contentOf, hk, content, Forest.map, Forest.cons.injEq] at e
    have hz := Loc.child hc (left := .nil) hk
    refine ⟨q.1.id, z.id, by rw [hr.node_parent hc]; rfl, ?_, ?_⟩
    · rw [hr.node_first hc, hk]; rfl
    · rw [(hr.node_get hz).2.1, ← e.1]

theorem TrueOf.nodes {t : Tree Syn} {F : Forest (Lab Syn)} {g : Bool} (hr : Represents g t F)
    {anc : List (Lab Syn)} {left kids right : Forest (Lab Syn)} {x : Lab Syn}
    (hl : Loc F anc left x kids right) {source : Text} {kind : Kind}
    (h : TrueOf source x.data x.span (branches kids.content) kind) :
    Truthful source t.nodes x.id x.data x.span kind := by
  cases kind with
  | unexpectedOperator what => exact ⟨h.1, h.2.1.nodes hr hl, h.2.2⟩
  | overflow => obtain ⟨h1, w, hw, h2⟩ := h; exact ⟨h1, w, hw, h2.nodes hr hl⟩
  | underflow => exact ⟨h.1, h.2.nodes hr hl⟩
  | divideByZero => exact ⟨h.1, h.2.nodes hr hl⟩
  | _ => exact h

/-- C97: the program gives one result for each root of the tree that has children, in order. If the
result is an error, then its span is the span of a node of the tree, which is that root or a
descendant of it; the text can be indexed with the span; and what the error says is true of the
node. -/
theorem C97_errors (source : Text) (hb : Text.bytes source < 2 ^ 32) :
    ∃ (t : Tree Syn) (roots : List Nat) (rs : List (Except EvalError Int)),
      parse source = .ok t ∧ run source = .ok (some (rs.map some)) ∧
      Yields (SkipTokens.next t.nodes (Children.next t.nodes)) t.children roots ∧
      rs.length = roots.length ∧
      ∀ (k root : Nat) (e : EvalError), roots[k]? = some root → rs[k]? = some (.error e) →
        ∃ (node : Nat) (value : Syn) (ancestors : List Nat) (text : Text),
          nodeValue t.nodes node = some value ∧ nodeSpan t.nodes node = some e.span ∧
          Yields (Ancestors.next t.nodes) (nodeAncestors node) ancestors ∧ root ∈ ancestors ∧
          source.get (e.span.range Flavor.default.ik) = some text ∧
          Truthful source t.nodes node value e.span e.kind := by
  obtain ⟨ps, hp⟩ := Lexed.total source
  obtain ⟨t, ops, F, h1, h2, _, h4, h5, _⟩ := C53_parse hp hb
  obtain ⟨rs, e, el, _⟩ := eval_total hp h2 h4 h5
  have hr := h2.represents
  have hcut : Cut source F.content := (h4.cut ⟨[], source, rfl, rfl⟩ (by
    rw [h5]
    exact lay_boundary ps (pre := []) rfl hp.texts.symm)).1
  refine ⟨t, (branches F).map (·.1.id), rs, h1, by simp only [run, h1, e], skip_roots hr, ?_, ?_⟩
  · rw [el, branches_content]; simp
  · intro k root err hk hrs
    rw [eval_eq hr] at e
    simp only [List.getElem?_map, Option.map_eq_some_iff] at hk
    obtain ⟨q, hq, rfl⟩ := hk
    have ev : evalF source (t.nodes.length + 1) (contentOf q).1 (contentOf q).2 =
        some (.error err) := by
      have := congrArg (fun l => l[k]?) (Option.some.inj e)
      simpa [branches_content, hq, hrs] using this
    have hqm := List.mem_of_getElem? hq
    have hpm : contentOf q ∈ branches F.content := by
      rw [branches_content]; exact List.mem_map_of_mem hqm
    obtain ⟨⟨y, ky⟩, ⟨anc, l, r, hy⟩, hs, ht⟩ :=
      (evalF_blame source _).1 _ _ err (h4.branches _ hpm).2.1 ev
    have hy : Loc (Forest.map (fun x : Lab Syn => (x.data, x.span)) (.cons q.1 q.2 .nil)) anc l y ky r :=
      hy
    obtain ⟨anc, l, x, kids, r, hx, rfl, rfl, rfl, rfl, rfl⟩ := hy.unmap
    obtain ⟨L, R, eF⟩ := branches_loc q hqm
    obtain ⟨⟨left, right, hl⟩, hm⟩ := Loc.embed eF hx
    have hmem : (x.data, x.span) ∈ F.content.preorder := by
      rw [content, preorder_mapped]; exact List.mem_map_of_mem hl.mem
    obtain ⟨text, hg⟩ := hcut.get _ hmem
    obtain ⟨_, g1, g2, _⟩ := hr.node_get hl
    refine ⟨x.id, x.data, _, text, g1, by rw [g2, hs], hr.ancestors hl, ?_, by rw [hs]; exact hg,
      by rw [hs]; exact ht.nodes hr hl⟩
    rcases List.mem_cons.1 hm with h | h
    · simp [h]
    · exact List.mem_cons_of_mem _ (List.mem_map_of_mem h)

deriving instance DecidableEq for Except

/-- A division by zero behind a character of two bytes: two roots, and the error of each is about a
part of the text. -/
example : run "é 1/0 + 2".toList = .ok (some [some (.error ⟨⟨0, 2⟩, .expected .number .error⟩),
      some (.error ⟨⟨3, 10⟩, .divideByZero⟩)]) ∧
    Text.get "é 1/0 + 2".toList (0, 2) = some "é".toList ∧
    Text.get "é 1/0 + 2".toList (3, 10) = some "1/0 + 2".toList :=
  ⟨by decide +kernel, by decide +kernel, by decide +kernel⟩

/-- A parenthesis that is not closed, and a number that is too large. -/
example : run "1+(2".toList = .ok (some [some (.error ⟨⟨0, 4⟩, .unexpectedOperator .eof⟩)]) ∧
    run "3 99999999999999999999".toList =
      .ok (some [some (.ok 3), some (.error ⟨⟨2, 22⟩, .badNumber⟩)]) :=
  ⟨by decide +kernel, by decide +kernel⟩

/-- C97: an operator is always there where the evaluator looks for one: the error
`expected operator` is never the result. -/
theorem C97_operator (source : Text) (hb : Text.bytes source < 2 ^ 32)
    (rs : List (Except EvalError Int)) (hr : run source = .ok (some (rs.map some))) :
    ∀ span, .error ⟨span, .expectedOperator⟩ ∉ rs := by
  intro span hm
  obtain ⟨t, roots, rs', _, h2, _, hl, h⟩ := C97_errors source hb
  rw [hr] at h2
  have e : rs = rs' := by
    have := Option.some.inj (Except.ok.inj h2)
    exact (List.map_inj_right (fun _ _ h => Option.some.inj h)).1 this
  subst e
  obtain ⟨k, hk, e⟩ := List.getElem_of_mem hm
  obtain ⟨_, _, _, _, _, _, _, _, _, ht⟩ := h k (roots[k]'(hl ▸ hk)) _
    (List.getElem?_eq_getElem _) (by rw [List.getElem?_eq_getElem hk, e])
  exact ht

example : .error ⟨⟨0, 4⟩, .expectedOperator⟩ ∉ ([.error ⟨⟨0, 4⟩, .unexpectedOperator .eof⟩] :
    List (Except EvalError Int)) :=
  C97_operator "1+(2".toList (by decide) _ (by decide +kernel) _

end Syntree.Calc
