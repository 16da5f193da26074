import Verif.Proof.CalcRun
import Verif.Proof.Nav
import Verif.Proof.Iterate
import Verif.Proof.Listing
import Verif.Proof.Bridge

/-! The evaluator of the calculator on nested lists. -/

namespace Syntree.Calc

open Forest

/-- The elements of the outermost level that have children, with their children. -/
def branches {β : Type} : Forest β → List (β × Forest β)
  | .nil => []
  | .cons _ .nil r => branches r
  | .cons x (.cons y k k') r => (x, .cons y k k') :: branches r

mutual
def evalF (source : Text) : Nat → Syn × Span → Forest (Syn × Span) → EvalRes
  | 0, _, _ => none
  | fuel + 1, x, kids =>
    match x.1 with
    | .group =>
      match kids with
      | .nil => some (.error ⟨x.2, .missing .number⟩)
      | .cons y k _ => evalF source fuel y k
    | .number =>
      match source.get (x.2.range Flavor.default.ik) with
      | none => none
      | some text =>
        match parseI64 text with
        | none => some (.error ⟨x.2, .badNumber⟩)
        | some n => some (.ok n)
    | .operation =>
      match branches kids with
      | [] => some (.error ⟨x.2, .missing .number⟩)
      | (y, k) :: rs =>
        match evalF source fuel y k with
        | none => none
        | some (.error e) => some (.error e)
        | some (.ok base) => opsF source fuel x.2 rs base
    | what => some (.error ⟨x.2, .expected .number what⟩)
def opsF (source : Text) : Nat → Span → List ((Syn × Span) × Forest (Syn × Span)) → Int → EvalRes
  | 0, _, _, _ => none
  | _ + 1, _, [], base => some (.ok base)
  | _ + 1, span, (_, .nil) :: _, _ => some (.error ⟨span, .expectedOperator⟩)
  | fuel + 1, span, (_, .cons y _ _) :: rs, base =>
    match table y.1 with
    | none => some (.error ⟨span, .unexpectedOperator y.1⟩)
    | some (calculate, error) =>
      match rs with
      | [] => some (.error ⟨span, .missing .number⟩)
      | (z, k) :: rs =>
        match evalF source fuel z k with
        | none => none
        | some (.error e) => some (.error e)
        | some (.ok b) =>
          match calculate base b with
          | some n => opsF source fuel span rs n
          | none => some (.error ⟨y.2.join span, error⟩)
end

/-- The content of a labelled element with children. -/
def contentOf (p : Lab Syn × Forest (Lab Syn)) : (Syn × Span) × Forest (Syn × Span) :=
  ((p.1.data, p.1.span), p.2.content)

theorem branches_content (F : Forest (Lab Syn)) :
    branches F.content = (branches F).map contentOf := by
  induction F with
  | nil => rfl
  | cons x k r _ ih =>
    cases k with
    | nil => exact ih
    | cons y k k' =>
      simp only [content, Forest.map, branches, List.map_cons] at ih ⊢
      rw [ih]; rfl

theorem branches_loc {β : Type} {F : Forest β} : ∀ p ∈ branches F, ∃ left right,
    F = left ++ .cons p.1 p.2 right := by
  induction F with
  | nil => simp [branches]
  | cons x k r _ ih =>
    intro p hp
    have step : p ∈ branches r → ∃ left right, Forest.cons x k r = left ++ .cons p.1 p.2 right := by
      intro hp
      obtain ⟨l, q, e⟩ := ih p hp
      exact ⟨.cons x k l, q, by rw [e]; rfl⟩
    cases k with
    | nil => exact step hp
    | cons y k k' =>
      simp only [branches, List.mem_cons] at hp
      rcases hp with rfl | hp
      · exact ⟨.nil, r, rfl⟩
      · exact step hp

theorem branches_filter {nodes : Slice Syn} (F : Forest (Lab Syn))
    (h : ∀ left x k right, F = left ++ .cons x k right → hasChildren nodes x.id = !k.isNil) :
    F.topIds.filter (hasChildren nodes) = (branches F).map (·.1.id) := by
  induction F with
  | nil => rfl
  | cons x k r _ ih =>
    have h1 := h .nil x k r rfl
    have h2 := ih (fun l y k' r' e => h (.cons x k l) y k' r' (by rw [e]; rfl))
    cases k with
    | nil =>
      simp only [isNil, Bool.not_true] at h1
      simp only [topIds, tops, List.map_cons, branches] at h2 ⊢
      rw [List.filter_cons_of_neg (by simp [h1])]
      exact h2
    | cons y k k' =>
      simp only [isNil, Bool.not_false] at h1
      simp only [topIds, tops, List.map_cons, branches] at h2 ⊢
      rw [List.filter_cons_of_pos h1, h2]

section tree
variable {g : Bool} {t : Tree Syn} {F : Forest (Lab Syn)}

theorem topIds_le {α : Type} {F : Forest (Lab α)} : F.topIds.length ≤ F.size := by
  induction F with
  | nil => simp [topIds, tops]
  | cons x k r _ ih => simp only [topIds, tops, List.map_cons, List.length_cons, Forest.size] at ih ⊢; omega

theorem size_append' {β : Type} (F G : Forest β) : (F ++ G).size = F.size + G.size := by
  induction F with
  | nil => simp [Forest.size]
  | cons x k r _ ih => simp only [cons_append, Forest.size, ih]; omega

theorem loc_kids_size {β : Type} {F : Forest β} {anc : List β} {left kids right : Forest β} {x : β}
    (hl : Loc F anc left x kids right) : left.size + (1 + kids.size + right.size) ≤ F.size := by
  induction hl with
  | root e => rw [e, size_append']; simp [Forest.size]
  | child _ e ih =>
    rw [e, size_append'] at ih
    simp only [Forest.size] at ih; omega

/-- The children that are no tokens. -/
theorem skip_children (h : Represents g t F) {anc : List (Lab Syn)} {left kids right : Forest (Lab Syn)}
    {x : Lab Syn} (hl : Loc F anc left x kids right) :
    Yields (SkipTokens.next t.nodes (Children.next t.nodes)) (nodeChildren t.nodes x.id)
      ((branches kids).map (·.1.id)) := by
  rw [← branches_filter (nodes := t.nodes) kids]
  · refine (h.node_children hl).filter _ _ _ ?_
    have := @topIds_le _ kids
    have := h.size
    have := loc_kids_size hl
    omega
  · intro l y k r e
    exact (h.node_get (Loc.child hl e)).2.2.2.1

theorem skip_roots (h : Represents g t F) :
    Yields (SkipTokens.next t.nodes (Children.next t.nodes)) t.children
      ((branches F).map (·.1.id)) := by
  rw [← branches_filter (nodes := t.nodes) F]
  · refine h.children.filter _ _ _ ?_
    have := @topIds_le _ F
    have := h.size
    omega
  · intro l y k r e
    exact (h.node_get (Loc.root e)).2.2.2.1

/-- The evaluator on the tree is the evaluator on the nested list. -/
theorem evalNode_eq (h : Represents g t F) (source : Text) (fuel : Nat) :
    (∀ {anc : List (Lab Syn)} {left kids right : Forest (Lab Syn)} {x : Lab Syn},
      Loc F anc left x kids right →
      evalNode t.nodes source fuel x.id = evalF source fuel (x.data, x.span) kids.content) ∧
    (∀ (span : Span) (it : Children) (rs : List (Lab Syn × Forest (Lab Syn))) (base : Int),
      (∀ p ∈ rs, ∃ anc left right, Loc F anc left p.1 p.2 right) →
      Yields (SkipTokens.next t.nodes (Children.next t.nodes)) it (rs.map (·.1.id)) →
      evalOps t.nodes source fuel span it base =
        opsF source fuel span (rs.map contentOf) base) := by
  induction fuel with
  | zero => exact ⟨fun _ => rfl, fun _ _ _ _ _ _ => rfl⟩
  | succ fuel ih =>
    obtain ⟨ihn, iho⟩ := ih
    refine ⟨?_, ?_⟩
    · intro anc left kids right x hl
      obtain ⟨_, hv, hs, hc, _⟩ := h.node_get hl
      unfold evalNode evalF
      simp only [hv, hs]
      generalize x.data = d
      cases d with
      | group =>
        simp only [h.node_first hl]
        cases kids with
        | nil => rfl
        | cons y k r => exact ihn (Loc.child hl (left := .nil) rfl)
      | operation =>
        simp only
        have hy := skip_children h hl
        rw [branches_content]
        cases hb : branches kids with
        | nil =>
          rw [hb] at hy
          cases hy with
          | done e => simp only [e, List.map_nil]
        | cons p rs =>
          rw [hb] at hy
          have hloc : ∀ q ∈ p :: rs, ∃ anc left right, Loc F anc left q.1 q.2 right := by
            intro q hq
            obtain ⟨l, r, e⟩ := branches_loc q (hb ▸ hq)
            exact ⟨_, l, r, Loc.child hl e⟩
          cases hy with
          | item e hy =>
            obtain ⟨a, l, r, hp⟩ := hloc p (by simp)
            simp only [e, List.map_cons, contentOf, ihn hp]
            cases evalF source fuel (p.1.data, p.1.span) p.2.content with
            | none => rfl
            | some v =>
              cases v with
              | error e => rfl
              | ok b => exact iho _ _ _ _ (fun q hq => hloc q (by simp [hq])) hy
      | _ => rfl
    · intro span it rs base hloc hy
      unfold evalOps
      cases rs with
      | nil =>
        cases hy with
        | done e => simp only [e, List.map_nil, opsF]
      | cons p rs =>
        cases hy with
        | item e hy =>
          obtain ⟨a, l, r, hp⟩ := hloc p (by simp)
          obtain ⟨x, k⟩ := p
          cases k with
          | nil => simp only [e, h.node_first hp, List.map_cons, contentOf, content, Forest.map, opsF]; rfl
          | cons y k k' =>
            obtain ⟨_, hv, hs, _⟩ := h.node_get (Loc.child hp (left := .nil) rfl)
            have hf : nodeFirst t.nodes x.id = some y.id := h.node_first hp
            simp only [e, hf, hv, hs, List.map_cons, contentOf, content, Forest.map, opsF]
            cases table y.data with
            | none => rfl
            | some c =>
              obtain ⟨calculate, error⟩ := c
              simp only
              cases rs with
              | nil =>
                cases hy with
                | done e => simp only [e, List.map_nil]
              | cons q rs =>
                cases hy with
                | item e hy =>
                  obtain ⟨a', l', r', hq⟩ := hloc q (by simp)
                  simp only [e, List.map_cons, ihn hq]
                  have : evalF source fuel (contentOf q).1 (contentOf q).2 =
                    evalF source fuel (q.1.data, q.1.span) q.2.content := rfl
                  rw [this]
                  cases evalF source fuel (q.1.data, q.1.span) q.2.content with
                  | none => rfl
                  | some v =>
                    cases v with
                    | error e => rfl
                    | ok b =>
                      simp only
                      cases calculate base b with
                      | none => rfl
                      | some n => exact iho _ _ _ _ (fun z hz => hloc z (by simp [hz])) hy

/-- `eval` of a tree: one result for each root that is no token. -/
theorem eval_eq (h : Represents g t F) (source : Text) :
    eval t source = some ((branches F.content).map fun p =>
      evalF source (t.nodes.length + 1) p.1 p.2) := by
  unfold eval
  have hy := skip_roots h
  rw [forLoop_of_yields hy]
  · rw [branches_content, List.map_map, List.map_map]
    congr 1
    apply List.map_congr_left
    intro p hp
    obtain ⟨l, r, e⟩ := branches_loc p hp
    exact (evalNode_eq h source _).1 (Loc.root e)
  · have h1 : ∀ G : Forest (Lab Syn), (branches G).length ≤ G.size := by
      intro G
      induction G with
      | nil => simp [branches]
      | cons x k r _ ih =>
        cases k with
        | nil => simp only [branches, Forest.size]; omega
        | cons y k k' => simp only [branches, Forest.size, List.length_cons]; omega
    have := h1 F
    have := h.size
    simp only [List.length_map]
    omega

end tree

/-! ## No panic -/

/-- The offset is between two characters of the source. -/
def Boundary (source : Text) (n : Nat) : Prop :=
  ∃ pre rest, source = pre ++ rest ∧ Text.bytes pre = n

theorem get_of_boundaries {source : Text} {a b : Nat} (ha : Boundary source a)
    (hb : Boundary source b) (h : a ≤ b) : ∃ text, source.get (a, b) = some text := by
  obtain ⟨p, q, rfl, rfl⟩ := ha
  obtain ⟨p', q', e, rfl⟩ := hb
  rcases List.append_eq_append_iff.1 e with ⟨c, rfl, rfl⟩ | ⟨c, rfl, rfl⟩
  · rw [bytes_append]
    exact ⟨c, by have := get_append p c; simpa using this _⟩
  · rw [bytes_append] at h
    have hc : c = [] := by
      cases c with
      | nil => rfl
      | cons x c =>
        have := utf8_pos x
        simp only [Text.bytes] at h
        omega
    subst hc
    exact ⟨[], by have := get_append p' []; simpa [Text.bytes] using this _⟩

/-- Every span of the nested list starts and ends between two characters. -/
def Cut (source : Text) : Forest (Syn × Span) → Prop
  | .nil => True
  | .cons x k r => (Boundary source x.2.start ∧ Boundary source x.2.stop ∧ x.2.start ≤ x.2.stop) ∧
      Cut source k ∧ Cut source r

theorem Tiles.cut {source : Text} : ∀ {F : Forest (Syn × Span)} {a b : Nat}, Tiles F a b →
    Boundary source a → (∀ x ∈ solid F, Boundary source x.2.stop) →
    Cut source F ∧ Boundary source b := by
  intro F
  induction F with
  | nil => intro a b h ha _; cases h; exact ⟨trivial, ha⟩
  | cons x k r ihk ih =>
    intro a b h ha hs
    obtain ⟨m, e, l, hk, hr⟩ := h
    have e' : Forest.cons x k r = Forest.cons x k .nil ++ r := rfl
    rw [e', solid_append] at hs
    have hm : Boundary source m ∧ Cut source k := by
      cases k with
      | nil =>
        refine ⟨?_, trivial⟩
        by_cases hz : a = m
        · rw [← hz]; exact ha
        · have := hs x (by simp [solid, leaves, e, hz])
          rw [e] at this; exact this
      | cons y k k' =>
        obtain ⟨h1, h2⟩ := ihk (hk (by simp)) ha (fun z hz => hs z (by
          refine List.mem_append_left _ ?_
          unfold solid at hz ⊢
          rw [leaves_single (by simp)]; exact hz))
        exact ⟨h2, h1⟩
    obtain ⟨h1, h2⟩ := ih hr hm.1 (fun z hz => hs z (List.mem_append_right _ hz))
    refine ⟨⟨?_, hm.2, h1⟩, h2⟩
    rw [e]; exact ⟨ha, hm.1, l⟩

theorem lay_boundary {source : Text} : ∀ (ps : List (Syn × Text)) {pre rest : Text},
    source = pre ++ rest → rest = (ps.map (·.2)).flatten →
    ∀ x ∈ lay (Text.bytes pre) (ps.map tokenOf), Boundary source x.2.stop := by
  intro ps
  induction ps with
  | nil => intro _ _ _ _ x hx; simp [lay] at hx
  | cons p ps ih =>
    intro pre rest h e x hx
    simp only [List.map_cons, lay, List.mem_cons] at hx
    simp only [List.map_cons, List.flatten_cons] at e
    rcases hx with rfl | hx
    · exact ⟨pre ++ p.2, (ps.map (·.2)).flatten, by rw [h, e, List.append_assoc],
        by rw [bytes_append]; rfl⟩
    · refine ih (pre := pre ++ p.2) (by rw [h, e, List.append_assoc]) rfl x ?_
      rw [bytes_append]; exact hx

/-- Number of nodes of a list of branches. -/
def weight (rs : List ((Syn × Span) × Forest (Syn × Span))) : Nat :=
  (rs.map fun p => 1 + p.2.size).sum

theorem weight_branches (F : Forest (Syn × Span)) : weight (branches F) ≤ F.size := by
  induction F with
  | nil => simp [branches, weight]
  | cons x k r _ ih =>
    cases k with
    | nil => simp only [branches, Forest.size]; omega
    | cons y k k' =>
      simp only [branches, weight, List.map_cons, List.sum_cons, Forest.size] at ih ⊢
      omega

def CutB (source : Text) (p : (Syn × Span) × Forest (Syn × Span)) : Prop :=
  Boundary source p.1.2.start ∧ Boundary source p.1.2.stop ∧ p.1.2.start ≤ p.1.2.stop ∧
    Cut source p.2

theorem Cut.branches {source : Text} {F : Forest (Syn × Span)} (h : Cut source F) :
    ∀ p ∈ branches F, CutB source p := by
  induction F with
  | nil => simp [Calc.branches]
  | cons x k r _ ih =>
    obtain ⟨⟨h1, h2, h3⟩, h4, h5⟩ := h
    cases k with
    | nil => exact ih h5
    | cons y k k' =>
      intro p hp
      simp only [Calc.branches, List.mem_cons] at hp
      rcases hp with rfl | hp
      · exact ⟨h1, h2, h3, h4⟩
      · exact ih h5 p hp

theorem evalF_total (source : Text) (fuel : Nat) :
    (∀ x k, CutB source (x, k) → 1 + k.size ≤ fuel → evalF source fuel x k ≠ none) ∧
    (∀ span rs base, (∀ p ∈ rs, CutB source p) → 1 + weight rs ≤ fuel →
      opsF source fuel span rs base ≠ none) := by
  induction fuel with
  | zero => exact ⟨fun _ _ _ h => by omega, fun _ _ _ _ h => by omega⟩
  | succ fuel ih =>
    obtain ⟨ihn, iho⟩ := ih
    refine ⟨?_, ?_⟩
    · intro x k hc hf
      obtain ⟨h1, h2, h3, h4⟩ := hc
      obtain ⟨d, sp⟩ := x
      unfold evalF
      cases d with
      | group =>
        cases k with
        | nil => simp
        | cons y k r =>
          obtain ⟨⟨g1, g2, g3⟩, g4, _⟩ := h4
          simp only [Forest.size] at hf
          exact ihn y k ⟨g1, g2, g3, g4⟩ (by omega)
      | number =>
        obtain ⟨text, e⟩ := get_of_boundaries h1 h2 h3
        have e' : source.get (sp.range Flavor.default.ik) = some text := e
        simp only [e']
        split <;> simp
      | operation =>
        simp only
        have hw := weight_branches k
        have hb := h4.branches
        cases hbr : branches k with
        | nil => simp
        | cons p rs =>
          obtain ⟨y, k'⟩ := p
          rw [hbr] at hw hb
          simp only [weight, List.map_cons, List.sum_cons] at hw
          have hy := ihn y k' (hb _ (by simp)) (by omega)
          simp only
          cases he : evalF source fuel y k' with
          | none => exact absurd he hy
          | some v =>
            cases v with
            | error e => simp
            | ok b =>
              exact iho _ _ _ (fun q hq => hb q (by simp [hq])) (by simp only [weight]; omega)
      | _ => simp
    · intro span rs base hb hf
      cases rs with
      | nil => simp [opsF]
      | cons p rs =>
        obtain ⟨x, k⟩ := p
        cases k with
        | nil => simp [opsF]
        | cons y k k' =>
          unfold opsF
          cases table y.1 with
          | none => simp
          | some c =>
            obtain ⟨calculate, error⟩ := c
            simp only
            cases rs with
            | nil => simp
            | cons q rs =>
              obtain ⟨z, kz⟩ := q
              simp only [weight, List.map_cons, List.sum_cons] at hf
              have hz := ihn z kz (hb _ (by simp)) (by omega)
              simp only
              cases he : evalF source fuel z kz with
              | none => exact absurd he hz
              | some v =>
                cases v with
                | error e => simp
                | ok b =>
                  simp only
                  cases calculate base b with
                  | none => simp
                  | some n =>
                    exact iho _ _ _ (fun q hq => hb q (by simp [hq])) (by simp only [weight]; omega)

end Syntree.Calc
