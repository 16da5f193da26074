import Verif.Proof.Equal
import Verif.Proof.Made
import Verif.Props.Macro
import Verif.Props.Spans

/-! # C39: equality of trees -/

namespace Syntree

variable {α : Type} {fl fl' : Flavor}

open Forest

/-- C39: `a == b` terminates, and is true exactly if the two trees are the same nested list of
values and spans. Ids, the order of construction and the flavors do not matter. -/
theorem C39_eq_iff_same_forest [DecidableEq α] {a b : Tree α}
    {F G : Forest (Lab α)} (ha : Made fl a F) (hb : Made fl' b G) :
    a.eq b = some (decide (F.content = G.content)) :=
  ha.represents.eq hb.represents

/-- What is compared is all a client can list by walking, except for the ids. -/
theorem C39_eq_iff_same_listing [DecidableEq α] {a b : Tree α}
    {F G : Forest (Lab α)} (ha : Made fl a F) (hb : Made fl' b G) :
    a.eq b = some true ↔ ∃ la lb, a.listing = some la ∧ b.listing = some lb ∧
      la.map (fun p => (p.1, p.2.2)) = lb.map (fun p => (p.1, p.2.2)) := by
  have key : ∀ F : Forest (Lab α), F.listing.map (fun p => (p.1, p.2.2)) =
      (F.content.depths 0).map (fun p => ((p.1 : Int), some p.2.1, some p.2.2)) := by
    intro F
    rw [Forest.content, depths_map, Forest.listing, List.map_map, List.map_map]
    rfl
  rw [C39_eq_iff_same_forest ha hb, ha.represents.listing, hb.represents.listing]
  constructor
  · intro h
    simp only [Option.some.injEq, decide_eq_true_eq] at h
    exact ⟨_, _, rfl, rfl, by rw [key, key, h]⟩
  · rintro ⟨la, lb, h1, h2, h3⟩
    simp only [Option.some.injEq] at h1 h2
    rw [← h1, ← h2, key, key] at h3
    have inj : ∀ {l l' : List (Nat × α × Span)},
        l.map (fun p => ((p.1 : Int), some p.2.1, some p.2.2)) =
          l'.map (fun p => ((p.1 : Int), some p.2.1, some p.2.2)) → l = l' := by
      intro l
      induction l with
      | nil => intro l' h; cases l' with
        | nil => rfl
        | cons => simp at h
      | cons p l ih =>
        intro l' h
        cases l' with
        | nil => simp at h
        | cons q l' =>
          obtain ⟨p1, p2, p3⟩ := p
          obtain ⟨q1, q2, q3⟩ := q
          simp only [List.map_cons, List.cons.injEq, Prod.mk.injEq, Option.some.injEq] at h
          obtain ⟨⟨h1, h2, h3⟩, h4⟩ := h
          rw [ih h4, h2, h3]
          have : p1 = q1 := by omega
          rw [this]
    simp [depths_inj (inj h3)]

/-- C39: `==` is an equivalence on made trees. -/
theorem C39_equivalence [DecidableEq α] {fl₁ fl₂ fl₃ : Flavor}
    {a b c : Tree α} {F G H : Forest (Lab α)} (ha : Made fl₁ a F) (hb : Made fl₂ b G)
    (hc : Made fl₃ c H) :
    a.eq a = some true ∧ a.eq b = b.eq a ∧
      (a.eq b = some true → b.eq c = some true → a.eq c = some true) := by
  rw [C39_eq_iff_same_forest ha ha, C39_eq_iff_same_forest ha hb, C39_eq_iff_same_forest hb ha,
    C39_eq_iff_same_forest hb hc, C39_eq_iff_same_forest ha hc]
  refine ⟨by simp, ?_, ?_⟩
  · congr 1
    rw [decide_eq_decide]
    exact eq_comm
  · simp only [Option.some.injEq, decide_eq_true_eq]
    exact Eq.trans

/-! ### A tree built by the cursor equals its literal -/

theorem literal_plain (F : Forest (Lab α)) : F.literal.plain = true := by
  induction F with
  | nil => rfl
  | cons x k r ihk ihr =>
    cases k with
    | nil => exact ihr
    | cons y k' r' => simp only [Forest.literal, Lit.plain, ihr, Bool.and_true]; exact ihk

theorem literal_count (F : Forest (Lab α)) : F.literal.count = F.size := by
  induction F with
  | nil => rfl
  | cons x k r ihk ihr =>
    cases k with
    | nil => simp [Forest.literal, Lit.count, Forest.size, ihr]
    | cons y k' r' =>
      have e : (Forest.cons x (.cons y k' r') r).literal =
        .node x.data (Forest.cons y k' r').literal r.literal := rfl
      rw [e, Lit.count, ihk, ihr]; rfl

theorem Tiled.literal {ik : IndexKind} {F : Forest (Lab α)} : ∀ {a b : Nat} (i : Nat),
    Tiled a F b → (∀ n, n ≤ b - a → Lit.tokenLen ik n = n) →
    F.literal.len ik = b - a ∧ (F.literal.layout ik a i).content = F.content := by
  induction F with
  | nil => intro a b i h _; cases h; exact ⟨(Nat.sub_self _).symm, rfl⟩
  | cons x k r ihk ihr =>
    intro a b i h hn
    obtain ⟨h1, l2, h2, h3⟩ := h
    have l3 := h3.le
    cases k with
    | nil =>
      have e : (Forest.cons x .nil r).literal = .token x.data (x.span.stop - x.span.start) r.literal :=
        rfl
      obtain ⟨q1, q2⟩ := ihr (i + 1) h3 (fun n hle => hn n (by omega))
      have e2 := hn (x.span.stop - x.span.start) (by omega)
      rw [h1] at e2
      rw [e]
      simp only [Lit.len, Lit.layout, h1, e2, q1]
      refine ⟨by omega, ?_⟩
      have e3 : a + (x.span.stop - a) = x.span.stop := by omega
      simp only [e3, Forest.content, Forest.map, cons.injEq, true_and] at q2 ⊢
      refine ⟨?_, q2⟩
      cases hx : x.span
      rw [hx] at h1
      simp only at h1
      subst h1; rfl
    | cons y k' r' =>
      have e : (Forest.cons x (.cons y k' r') r).literal =
        .node x.data (Forest.cons y k' r').literal r.literal := rfl
      obtain ⟨p1, p2⟩ := ihk (i + 1) (h2 (by simp)) (fun n hle => hn n (by omega))
      obtain ⟨q1, q2⟩ := ihr (i + 1 + (Forest.cons y k' r').literal.count) h3
        (fun n hle => hn n (by omega))
      rw [e]
      simp only [Lit.len, Lit.layout, p1, q1]
      refine ⟨by omega, ?_⟩
      have e3 : a + (x.span.stop - a) = x.span.stop := by omega
      simp only [e3]
      simp only [Forest.content] at p2 q2 ⊢
      simp only [Forest.map]
      simp only [Forest.map] at p2
      rw [p2, q2]
      congr 2
      cases hx : x.span
      rw [hx] at h1
      simp only at h1
      subst h1; rfl

/-- The cursor is always addressable, and there are never more nodes than pointers. -/
theorem addressable_of_run {ops : List (Op α)} {n : Nest α} {os : List (Except Err Out)}
    (h : Nest.init.run fl ops = some (n, os)) (hc : ∀ op ∈ ops, op.cursorDriven = true)
    (hsp : Spare fl n.count os) :
    SpanInv n ∧ Lit.Addressable fl.ik n.cursor ∧ n.count ≤ 2 ^ fl.width - 1 := by
  refine Spare.induct (P := fun _ n _ => SpanInv n ∧ Lit.Addressable fl.ik n.cursor ∧
    n.count ≤ 2 ^ fl.width - 1) ?_ ?_ ops n os h hc hsp
  · refine ⟨SpanInv.init, ?_, Nat.zero_le _⟩
    cases fl.ik with
    | empty => trivial
    | bits w => exact Nat.two_pow_pos w
  · intro ops n os op n' o hop _ ⟨hs, ha, hcnt⟩ hst hsp
    have hd := Nest.step_did hst
    refine ⟨hs.did hd hop hsp, ?_⟩
    cases hd with
    | fail _ _ => exact ⟨ha, hcnt⟩
    | lost d len c he ha' hf =>
      rcases hsp with h1 | h1
      · rw [hf] at h1; simp at h1
      · exact absurd rfl h1
    | noHandle _ => exact ⟨ha, hcnt⟩
    | setCursor _ => simp [Op.cursorDriven] at hop
    | mark _ => exact ⟨ha, hcnt⟩
    | opened _ d sp hop' hf => exact ⟨ha, not_full_iff.1 (by rw [hf]; simp)⟩
    | emptyTok _ d _ hf => exact ⟨ha, not_full_iff.1 (by rw [hf]; simp)⟩
    | tok d len c he ha' hf =>
      have hlt : n.count < 2 ^ fl.width - 1 := not_full_iff.1 (by rw [hf]; simp)
      refine ⟨?_, hlt⟩
      show Lit.Addressable fl.ik c
      cases hik : fl.ik with
      | empty => trivial
      | bits w =>
        rw [hik] at ha'
        simp only [IndexKind.checkedAddLen] at ha'
        split at ha'
        · cases ha'; assumption
        · simp at ha'
    | tokWith d sp _ => simp [Op.cursorDriven] at hop
    | closed x left st hs' =>
      obtain ⟨s, _, h2, _⟩ := hs
      rw [hs'] at h2
      refine ⟨?_, hcnt⟩
      show Lit.Addressable fl.ik x.span.stop
      rw [h2.1]; exact ha
    | wrapped _ k d explicit m hop' _ _ _ hf =>
      have hlt : n.count < 2 ^ fl.width - 1 := not_full_iff.1 (by rw [hf]; simp)
      refine ⟨?_, by rw [wrap_count]; exact hlt⟩
      have : (n.wrap m.pos d explicit).cursor = n.cursor := by unfold Nest.wrap; split <;> rfl
      rw [this]; exact ha

/-- What the cursor lays out is the layout of the literal. -/
theorem Built.canonical {ops : List (Op α)} {t : Tree α}
    {F : Forest (Lab α)} (h : Built fl ops t F) (hc : ∀ op ∈ ops, op.cursorDriven = true)
    (hsp : Spare fl t.len (Sys.init.run fl ops).2) :
    F.literal.Fits fl ∧ (F.literal.layout fl.ik 0 0).content = F.content ∧
      t.span = ⟨0, F.literal.len fl.ik⟩ ∧ F.literal.count = t.len := by
  obtain ⟨n, os, h1, hs, hcur, ho, _, hlen, _, hspan⟩ := h.parts
  obtain ⟨hT, hS, hL⟩ := h.lens hc hsp
  rw [ho, hlen] at hsp
  obtain ⟨⟨_, _, _, hstop⟩, hadd, hcnt⟩ := addressable_of_run h1 hc hsp
  have hcursor : n.cursor = textLen fl (made ops (Sys.init.run fl ops).2) := by
    have := hspan.symm.trans hS
    simp only [Span.mk.injEq, true_and] at this
    rw [← this, hstop]
  have hsize : F.literal.count = t.len := by
    rw [literal_count]; exact h.represents.size
  have htl : ∀ n, n ≤ textLen fl (made ops (Sys.init.run fl ops).2) - 0 →
      Lit.tokenLen fl.ik n = n := by
    intro n hn
    cases hik : fl.ik with
    | bits w => rfl
    | empty =>
      have : textLen fl (made ops (Sys.init.run fl ops).2) = 0 := by
        unfold textLen
        have : ∀ l : List (Op α), (l.map (Op.len fl)).sum = 0 := by
          intro l
          induction l with
          | nil => rfl
          | cons op l ih =>
            rw [List.map_cons, List.sum_cons, ih]
            cases op <;> simp [Op.len, hik, IndexKind.lenIsEmpty]
        exact this _
      simp only [Lit.tokenLen]; omega
  obtain ⟨e1, e2⟩ := hT.literal (ik := fl.ik) 0 htl
  refine ⟨⟨by rw [hsize, hlen]; exact hcnt, ?_⟩, e2, ?_, hsize⟩
  · rw [e1, ← hcursor]; exact hadd
  · rw [e1, hS]; simp

/-- C39, a canonical form: however a tree was built (checkpoints, failed calls, nodes left empty),
as long as only the cursor placed its nodes and no token was lost for want of pointers, it is equal
to the tree of the literal that is written down by reading off its nesting, values and the lengths
of its childless nodes. -/
theorem C39_equals_its_literal [DecidableEq α] {ops : List (Op α)} {t : Tree α}
    {F : Forest (Lab α)} (h : Built fl ops t F) (hc : ∀ op ∈ ops, op.cursorDriven = true)
    (hsp : Spare fl t.len (Sys.init.run fl ops).2) :
    ∃ t', F.literal.tree fl = .ok t' ∧ t.eq t' = some true ∧ t'.eq t = some true ∧
      t'.len = t.len ∧ t'.span = t.span := by
  obtain ⟨hfits, e2, hspan, hsize⟩ := h.canonical hc hsp
  obtain ⟨t', q1, q2, q3, q4, q5⟩ := C01_literal_round_trip (fl := fl) F.literal (literal_plain F) hfits
  refine ⟨t', q1, ?_, ?_, q3.trans hsize, ?_⟩
  · rw [C39_eq_iff_same_forest (.built h) (.built q5), e2]; simp
  · rw [C39_eq_iff_same_forest (.built q5) (.built h), e2]; simp
  · rw [q4, hspan]

/-- The example history of `Props/Spans.lean` (with a checkpoint) meets the hypotheses. -/
example := C39_equals_its_literal lenOps_built.1 lenOps_built.2.1 lenOps_built.2.2
example := C39_equivalence (.built lenOps_built.1) (.built lenOps_built.1) (.built lenOps_built.1)

/-- Two trees with different ids that are equal: a wrapped token and the same thing opened first. -/
example : ∃ a b F G,
    Built Flavor.default [.checkpoint, .token 1 3, .closeAt 0 (0 : Nat)] a F ∧
    Built Flavor.default [.open 0, .token 1 3, .close] b G ∧
    F ≠ G ∧ a.eq b = some true :=
  ⟨_, _, _, _, ⟨_, _, rfl, rfl, rfl⟩, ⟨_, _, rfl, rfl, rfl⟩, by decide, rfl⟩

/-- Two different trees with the same values and spans in the same order. -/
example : ∃ a b F G,
    Built Flavor.default [.open 0, .tokenEmpty 1, .close, .tokenEmpty (2 : Nat)] a F ∧
    Built Flavor.default [.open 0, .tokenEmpty 1, .tokenEmpty 2, .close] b G ∧
    F.preorder = G.preorder ∧ a.eq b = some false :=
  ⟨_, _, _, _, ⟨_, _, rfl, rfl, rfl⟩, ⟨_, _, rfl, rfl, rfl⟩, by decide, rfl⟩

end Syntree
