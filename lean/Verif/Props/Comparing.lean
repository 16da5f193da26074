import Verif.Proof.Comparing

/-!
# C94: comparing trees asks the `PartialEq` of the values

`Tree.eqWith p m a b` is `a == b` where comparing two values calls `p`, which may have state;
`Tree.eqBy r a b` is the same for a relation `r` without state. `comparing` and `Forest.Match`:
`Spec/Comparing.lean`.
-/

namespace Syntree

variable {α : Type} {a b c : Tree α}

/-- C94: on all trees a program can get hold of, and whatever the `PartialEq` of the values does,
`==` ends; it compares what the two walks with depths list, row by row: the depths, then the values
(this is when `PartialEq` of the values is called), then the spans; and stops at the first
difference. -/
theorem C94_any_trees (ha : Obtained a) (hb : Obtained b) :
    ∃ rows rows', ListedBy a rows ∧ ListedBy b rows' ∧
      (∀ l, ListedBy a l → l = rows) ∧ (∀ l, ListedBy b l → l = rows') ∧
      ∀ {μ : Type} (p : μ → α → α → μ × Bool) (m : μ), a.eqWith p m b =
        ((comparing p m rows rows').1, some (comparing p m rows rows').2) := by
  obtain ⟨l, l', h1, h2, _, _, h3⟩ := eqWith_rows ha hb
  exact ⟨l, l', h1, h2, fun _ h => h.unique h1, fun _ h => h.unique h2, h3⟩

/-- C94: the values that are compared are those at the same places of the two walks, each place at
most once, in document order, so at most as many as the smaller tree has nodes; if a place has been
asked about, then everything before it has been found the same; and unless one of the walks is used
up, the last place compared is the one of the first difference. -/
theorem C94_asked (ha : Obtained a) (hb : Obtained b) (r : α → α → Bool) {rows rows' : List (Row α)}
    (h1 : ListedBy a rows) (h2 : ListedBy b rows') :
    ∃ n, (a.eqWith (noting r) [] b).1 =
        ((rows.zip rows').take n).map (fun q => (q.1.data, q.2.data)) ∧
      n ≤ a.len ∧ n ≤ b.len ∧
      (∀ (k : Nat) q, k < n → (rows.zip rows')[k]? = some q → q.1.depth = q.2.depth) ∧
      (∀ (k : Nat) q, k + 1 < n → (rows.zip rows')[k]? = some q → r q.1.data q.2.data = true ∧
        q.1.span = q.2.span) ∧
      (n < rows.length → n < rows'.length →
        (∃ q, (rows.zip rows')[n]? = some q ∧ q.1.depth ≠ q.2.depth) ∨
        (∃ k q, k + 1 = n ∧ (rows.zip rows')[k]? = some q ∧
          ¬ (r q.1.data q.2.data = true ∧ q.1.span = q.2.span))) := by
  obtain ⟨l, l', g1, g2, g3, g4, g5⟩ := eqWith_rows ha hb
  have e1 := h1.unique g1
  have e2 := h2.unique g2
  subst e1 e2
  obtain ⟨n, k1, k2, k3, k4, k5⟩ := comparing_asked r rows rows' []
  refine ⟨n, by rw [g5, k1]; rfl, ?_, ?_, k3, k4, fun _ _ => k5 ?_⟩
  · simp only [List.length_zip] at k2; omega
  · simp only [List.length_zip] at k2; omega
  · simp only [List.length_zip]; omega

/-- C94: for trees that are nested lists, `==` holds exactly if the nested lists have the same shape
and spans and `r` holds between the values at the same places. -/
theorem C94_same_shape {fl fl' : Flavor} {F G : Forest (Lab α)} (ha : Made fl a F)
    (hb : Made fl' b G) (r : α → α → Bool) :
    a.eqBy r b = some true ↔ F.content.Match r G.content := by
  obtain ⟨rows, rows', h1, h2, h3, h4, h5⟩ := C94_any_trees ha.obtained hb.obtained
  have e1 := h3 _ (listedBy_content ha.represents.listing)
  have e2 := h4 _ (listedBy_content hb.represents.listing)
  rw [Tree.eqBy, h5, ← e1, ← e2, Option.some.injEq]
  exact comparing_rowsOf r _ (fun _ _ _ => rfl) _ _ _

/-- C94: `==` always answers. A tree equals itself exactly if all of its values equal themselves (so
a tree with a value that is not equal to itself is not equal to itself, nor to its clone); `==` is
symmetric if `r` is, and transitive if `r` is. -/
theorem C94_equivalence (ha : Obtained a) (hb : Obtained b) (hc : Obtained c) (r : α → α → Bool) :
    a.eqBy r b ≠ none ∧
    (a.eqBy r a = some true ↔ ∃ rows, ListedBy a rows ∧ ∀ q ∈ rows, r q.data q.data = true) ∧
    ((∀ x y, r x y = r y x) → a.eqBy r b = b.eqBy r a) ∧
    ((∀ x y z, r x y = true → r y z = true → r x z = true) →
      a.eqBy r b = some true → b.eqBy r c = some true → a.eqBy r c = some true) := by
  have key : ∀ {a b : Tree α} {la lb : List (Row α)}, Obtained a → Obtained b → ListedBy a la →
      ListedBy b lb → ∃ x, a.eqBy r b = some x ∧ (x = true ↔ la.length = lb.length ∧
      ∀ q ∈ la.zip lb, q.1.depth = q.2.depth ∧ r q.1.data q.2.data = true ∧ q.1.span = q.2.span) := by
    intro a b la lb ha hb hla hlb
    obtain ⟨rows, rows', _, _, h3, h4, h5⟩ := C94_any_trees ha hb
    have e1 := h3 _ hla
    have e2 := h4 _ hlb
    subst e1 e2
    exact ⟨_, by rw [Tree.eqBy, h5], comparing_answer r _ (fun _ _ _ => rfl) _ _ _⟩
  obtain ⟨la, lb, hla, hlb, _⟩ := C94_any_trees ha hb
  obtain ⟨lc, _, hlc, _⟩ := C94_any_trees hc hc
  obtain ⟨xab, eab, iab⟩ := key ha hb hla hlb
  obtain ⟨xba, eba, iba⟩ := key hb ha hlb hla
  obtain ⟨xaa, eaa, iaa⟩ := key ha ha hla hla
  obtain ⟨xbc, ebc, ibc⟩ := key hb hc hlb hlc
  obtain ⟨xac, eac, iac⟩ := key ha hc hla hlc
  have zself : ∀ (l : List (Row α)) (q : Row α × Row α), q ∈ l.zip l ↔ q.1 ∈ l ∧ q.2 = q.1 := by
    intro l
    induction l with
    | nil => simp
    | cons x l ih =>
      rintro ⟨p, q⟩
      simp only [List.zip_cons_cons, List.mem_cons, Prod.mk.injEq, ih]
      constructor
      · rintro (⟨rfl, rfl⟩ | ⟨h, rfl⟩)
        · exact ⟨.inl rfl, rfl⟩
        · exact ⟨.inr h, rfl⟩
      · rintro ⟨rfl | h, rfl⟩
        · exact .inl ⟨rfl, rfl⟩
        · exact .inr ⟨h, rfl⟩
  have zswap : ∀ (l l' : List (Row α)) (q : Row α × Row α), q ∈ l.zip l' → (q.2, q.1) ∈ l'.zip l := by
    intro l
    induction l with
    | nil => simp
    | cons x l ih =>
      intro l' q h
      cases l' with
      | nil => simp at h
      | cons y l' =>
        simp only [List.zip_cons_cons, List.mem_cons] at h ⊢
        rcases h with rfl | h
        · exact .inl rfl
        · exact .inr (ih l' q h)
  have ztrans : ∀ (l l' l'' : List (Row α)), l.length = l'.length →
      ∀ q ∈ l.zip l'', ∃ y, (q.1, y) ∈ l.zip l' ∧ (l'.length = l''.length → (y, q.2) ∈ l'.zip l'') := by
    intro l
    induction l with
    | nil => simp
    | cons x l ih =>
      intro l' l'' e q h
      cases l' with
      | nil => simp at e
      | cons y l' =>
        cases l'' with
        | nil => simp at h
        | cons z l'' =>
          simp only [List.zip_cons_cons, List.mem_cons] at h ⊢
          rcases h with rfl | h
          · exact ⟨y, .inl rfl, fun _ => .inl rfl⟩
          · obtain ⟨w, h1, h2⟩ := ih l' l'' (by simpa using e) q h
            exact ⟨w, .inr h1, fun e => .inr (h2 (by simpa using e))⟩
  refine ⟨by rw [eab]; simp, ?_, ?_, ?_⟩
  · rw [eaa, Option.some.injEq, iaa]
    constructor
    · rintro ⟨_, h⟩
      exact ⟨la, hla, fun q hq => (h (q, q) ((zself la (q, q)).2 ⟨hq, rfl⟩)).2.1⟩
    · rintro ⟨rows, h1, h2⟩
      have := h1.unique hla
      subst this
      refine ⟨rfl, ?_⟩
      rintro ⟨p, q⟩ hq
      obtain ⟨h3, h4⟩ := (zself rows (p, q)).1 hq
      simp only at h3 h4
      subst h4
      exact ⟨rfl, h2 _ h3, rfl⟩
  · intro hs
    rw [eab, eba]
    congr 1
    rw [Bool.eq_iff_iff, iab, iba]
    constructor
    · rintro ⟨h1, h2⟩
      refine ⟨h1.symm, fun q hq => ?_⟩
      obtain ⟨g1, g2, g3⟩ := h2 _ (zswap lb la q hq)
      exact ⟨g1.symm, (hs _ _).trans g2, g3.symm⟩
    · rintro ⟨h1, h2⟩
      refine ⟨h1.symm, fun q hq => ?_⟩
      obtain ⟨g1, g2, g3⟩ := h2 _ (zswap la lb q hq)
      exact ⟨g1.symm, (hs _ _).trans g2, g3.symm⟩
  · intro ht
    rw [eab, ebc, eac, Option.some.injEq, Option.some.injEq, Option.some.injEq, iab, ibc, iac]
    rintro ⟨h1, h2⟩ ⟨h3, h4⟩
    refine ⟨h1.trans h3, fun q hq => ?_⟩
    obtain ⟨y, g1, g2⟩ := ztrans la lb lc h1 q hq
    obtain ⟨k1, k2, k3⟩ := h2 _ g1
    obtain ⟨k4, k5, k6⟩ := h4 _ (g2 h3)
    exact ⟨k1.trans k4, ht _ _ _ k2 k5, k3.trans k6⟩

/-- C94: with an equality that decides if the values are the same, this is the comparison of C39. -/
theorem C94_with_equality [DecidableEq α] (ha : Obtained a) (hb : Obtained b) :
    a.eqBy (fun x y => decide (x = y)) b = a.eq b := by
  obtain ⟨l, h1, h2, h3⟩ := ha.depth_walk
  obtain ⟨l', h1', h2', h3'⟩ := hb.depth_walk
  have e : a.eq b = some (listEq (fun x y => x.1 == y.1 && nodeEq a.nodes x.2 b.nodes y.2) l l') :=
    iterEq_of_yields _ h1 h1' _ (Nat.lt_succ_of_le h2)
  have key : ∀ (n : Nat) (l : List (Int × Nat)) (l' : List (Int × Nat)) (s s' : WalkEvents),
      Yields (WithDepths.next a.nodes) s l → Yields (WithDepths.next b.nodes) s' l' → l.length < n →
      (iterEqWith (WithDepths.next a.nodes) (WithDepths.next b.nodes)
        (fun (m : Unit) x y => if x.1 == y.1 then nodeEqWith
          (fun (_ : Unit) x y => ((), decide (x = y))) m a.nodes x.2 b.nodes y.2 else (m, false))
        n () s s').2 =
      some (listEq (fun x y => x.1 == y.1 && nodeEq a.nodes x.2 b.nodes y.2) l l') := by
    intro n
    induction n with
    | zero => intro l l' s s' _ _ h; omega
    | succ n ih =>
      intro l l' s s' hy hy' hn
      cases hy with
      | done e =>
        cases hy' with
        | done e' => simp [iterEqWith, e, e', listEq]
        | item e' _ => simp [iterEqWith, e, e', listEq]
      | @item _ s2 x l e hl =>
        cases hy' with
        | done e' => simp [iterEqWith, e, e', listEq]
        | @item _ s2' y l' e' hl' =>
          simp only [List.length_cons] at hn
          have := ih l l' s2 s2' hl hl' (by omega)
          simp only [iterEqWith, e, e', listEq]
          by_cases hd : x.1 = y.1
          · simp only [hd, beq_self_eq_true, if_true, Bool.true_and, nodeEq, nodeEqWith]
            cases a.nodes[x.2]? with
            | none => simp
            | some lx =>
              cases b.nodes[y.2]? with
              | none => simp
              | some ly =>
                dsimp only
                by_cases hv : lx.data = ly.data
                · by_cases hs : lx.span = ly.span
                  · simp only [hv, hs, decide_true, beq_self_eq_true, Bool.and_self, Bool.true_and]
                    exact this
                  · have hs' : (lx.span == ly.span) = false := beq_eq_false_iff_ne.2 hs
                    simp [hv, hs']
                · have hv' : (lx.data == ly.data) = false := beq_eq_false_iff_ne.2 hv
                  simp [hv]
          · simp [hd]
  rw [e]
  exact key _ l l' _ _ h1 h1' (Nat.lt_succ_of_le h2)

/-! A relation that is not reflexive: `2` is not equal to itself, like a floating point number that
is not a number. The tree has such a value; comparing it with itself asks about four nodes
and stops. -/

def strange (x y : Nat) : Bool := x == y && x != 2

example : wildTree.eqBy strange wildTree = some false := by decide +kernel
example : (wildTree.eqWith (noting strange) [] wildTree).1 = [(4, 4), (1, 1), (5, 5), (2, 2)] := by
  decide +kernel
example : wildTree.eqBy strange wildTree ≠ none :=
  (C94_equivalence wild_obtained wild_obtained wild_obtained strange).1
example : wildTree.eqBy (fun x y => decide (x = y)) wildTree = some true :=
  (C94_with_equality wild_obtained wild_obtained).trans (by decide)
example : demoTree.eqBy (fun _ _ => true) demoTree = some true :=
  (C94_same_shape demo_made demo_made _).2 ⟨rfl, rfl, ⟨rfl, rfl, ⟨rfl, rfl, trivial, rfl, rfl, trivial, trivial⟩, rfl, rfl, trivial, trivial⟩,
    rfl, rfl, trivial, trivial⟩

end Syntree
