import Verif.Model.Comparing
import Verif.Spec.Comparing
import Verif.Props.Anyhow
import Verif.Proof.Clone

/-! Comparing trees with any `PartialEq` of the values. -/

namespace Syntree

variable {α : Type} {μ : Type}

open Forest

theorem iterEqWith_of_yields {σ τ β γ : Type} {next : NextFn σ β} {next' : NextFn τ γ}
    {eq : μ → β → γ → μ × Bool} {p : μ → α → α → μ × Bool} {f : β → Row α} {g : γ → Row α}
    {s : σ} {l : List β} (h : Yields next s l) :
    ∀ {s' : τ} {l' : List γ}, Yields next' s' l' →
      (∀ x ∈ l, ∀ y ∈ l', ∀ m, eq m x y = if (f x).depth = (g y).depth then
        ((p m (f x).data (g y).data).1,
          (p m (f x).data (g y).data).2 && decide ((f x).span = (g y).span)) else (m, false)) →
      ∀ fuel m, l.length < fuel →
      iterEqWith next next' eq fuel m s s' =
        ((comparing p m (l.map f) (l'.map g)).1, some (comparing p m (l.map f) (l'.map g)).2) := by
  induction h with
  | done e =>
    intro s' l' h' heq fuel m hf
    cases fuel with
    | zero => omega
    | succ fuel =>
      cases h' with
      | done e' => simp [iterEqWith, e, e', comparing]
      | item e' _ => simp [iterEqWith, e, e', comparing]
  | @item s s2 x l e _ ih =>
    intro s' l' h' heq fuel m hf
    cases fuel with
    | zero => omega
    | succ fuel =>
      simp only [List.length_cons] at hf
      cases h' with
      | done e' => simp [iterEqWith, e, e', comparing]
      | @item _ t2 y l' e' h2 =>
        have hxy := heq x (by simp) y (by simp) m
        simp only [iterEqWith, e, e', comparing, List.map_cons]
        rw [hxy]
        by_cases hd : (f x).depth = (g y).depth
        · simp only [hd, if_true]
          rcases hp : p m (f x).data (g y).data with ⟨m', b⟩
          cases b with
          | false => simp
          | true =>
            by_cases hs : (f x).span = (g y).span
            · simp only [hs, decide_true, Bool.and_true, and_self, if_true]
              exact ih h2 (fun a ha b hb => heq a (by simp [ha]) b (by simp [hb])) fuel m' (by omega)
            · simp [hs]
        · simp [hd]

/-- The row of a node of the slice. -/
def rowAt (nodes : Slice α) (d : α) (x : Int × Nat) : Row α :=
  match nodes[x.2]? with
  | some l => ⟨x.1, l.data, l.span⟩
  | none => ⟨x.1, d, ⟨0, 0⟩⟩

theorem nodeEqWith_rows (p : μ → α → α → μ × Bool) {nodes nodes' : Slice α} {x y : Int × Nat}
    (hx : x.2 < nodes.length) (hy : y.2 < nodes'.length) (d : α) (m : μ) :
    (if x.1 == y.1 then nodeEqWith p m nodes x.2 nodes' y.2 else (m, false)) =
      if (rowAt nodes d x).depth = (rowAt nodes' d y).depth then
        ((p m (rowAt nodes d x).data (rowAt nodes' d y).data).1,
          (p m (rowAt nodes d x).data (rowAt nodes' d y).data).2 &&
            decide ((rowAt nodes d x).span = (rowAt nodes' d y).span)) else (m, false) := by
  obtain ⟨l, hl⟩ := get_of_lt hx
  obtain ⟨l', hl'⟩ := get_of_lt hy
  simp only [rowAt, hl, hl', nodeEqWith, beq_iff_eq]
  by_cases hd : x.1 = y.1
  · simp only [hd, if_true]
    rcases p m l.data l'.data with ⟨m', b⟩
    cases b with
    | false => rfl
    | true =>
      dsimp only
      rw [Bool.true_and]
      congr 1
  · simp [hd]

theorem Obtained.depth_walk {t : Tree α} (h : Obtained t) :
    ∃ l, Yields (WithDepths.next t.nodes) t.walk l ∧ l.length ≤ t.nodes.length ∧
      ∀ q ∈ l, q.2 < t.nodes.length := by
  obtain ⟨l, h1, h2, h3⟩ := (C49_tree_walks_end h).2.2.1
  refine ⟨l, h1, ?_, h3⟩
  have := length_le_of_lt t.nodes.length _ h2 (by
    intro x hx
    obtain ⟨p, hp, rfl⟩ := List.mem_map.1 hx
    exact h3 p hp)
  simpa using this

theorem zip_map_row {nodes : Slice α} (d : α) : ∀ (l : List (Int × Nat)),
    (∀ q ∈ l, q.2 < nodes.length) →
    l.map (fun p => (p.1, p.2, nodeValue nodes p.2, nodeSpan nodes p.2)) =
      ((l.map (·.2)).zip (l.map (rowAt nodes d))).map
        fun p => (p.2.depth, p.1, some p.2.data, some p.2.span)
  | [], _ => rfl
  | x :: l, h => by
    obtain ⟨k, hk⟩ := get_of_lt (h x (by simp))
    rw [List.map_cons, List.map_cons, List.map_cons, List.zip_cons_cons, List.map_cons,
      zip_map_row d l (fun q hq => h q (by simp [hq]))]
    congr 1
    simp [rowAt, hk, nodeValue, nodeSpan]

theorem eqWith_rows {t t' : Tree α} (h : Obtained t) (h' : Obtained t') :
    ∃ rows rows', ListedBy t rows ∧ ListedBy t' rows' ∧ rows.length ≤ t.len ∧ rows'.length ≤ t'.len ∧
      ∀ {μ : Type} (p : μ → α → α → μ × Bool) (m : μ), t.eqWith p m t' =
        ((comparing p m rows rows').1, some (comparing p m rows rows').2) := by
  obtain ⟨l, h1, h2, h3⟩ := h.depth_walk
  obtain ⟨l', h1', h2', h3'⟩ := h'.depth_walk
  -- without values there are no nodes to compare
  by_cases hα : Nonempty α
  · obtain ⟨d⟩ := hα
    refine ⟨l.map (rowAt t.nodes d), l'.map (rowAt t'.nodes d), ⟨l.map (·.2), by simp, ?_⟩,
      ⟨l'.map (·.2), by simp, ?_⟩, by simpa [Tree.len] using h2, by simpa [Tree.len] using h2', ?_⟩
    · rw [← zip_map_row d l h3]
      exact forLoop_of_yields h1 _ (Nat.lt_succ_of_le h2)
    · rw [← zip_map_row d l' h3']
      exact forLoop_of_yields h1' _ (Nat.lt_succ_of_le h2')
    · intro μ p m
      exact iterEqWith_of_yields h1 h1'
        (fun x hx y hy m => nodeEqWith_rows p (h3 x hx) (h3' y hy) d m) _ m
        (Nat.lt_succ_of_le h2)
  · have nil : ∀ (t : Tree α) (l : List (Int × Nat)), (∀ q ∈ l, q.2 < t.nodes.length) → l = [] := by
      intro t l h3
      cases l with
      | nil => rfl
      | cons q l =>
        obtain ⟨k, _⟩ := get_of_lt (h3 q (by simp))
        exact absurd ⟨k.data⟩ hα
    have e := nil t l h3
    have e' := nil t' l' h3'
    subst e e'
    refine ⟨[], [], ⟨[], rfl, forLoop_of_yields h1 _ (Nat.lt_succ_of_le h2)⟩,
      ⟨[], rfl, forLoop_of_yields h1' _ (Nat.lt_succ_of_le h2')⟩, Nat.zero_le _, Nat.zero_le _, ?_⟩
    intro μ p m
    cases h1 with
    | done e =>
      cases h1' with
      | done e' => simp [Tree.eqWith, iterEqWith, e, e', comparing]

/-- Everything that is made can be got hold of. -/
theorem Made.obtained {fl : Flavor} {t : Tree α} {F : Forest (Lab α)} (h : Made fl t F) :
    Obtained t := by
  induction h with
  | @built ops t F hb =>
    obtain ⟨n, os, _, _, h3⟩ := hb
    refine .built (ops := .new fl :: ops.map (.call 0)) (i := 0) (fl := fl)
      (b := (Sys.init.run fl ops).1.b) rfl ?_ h3
    have := world_calls (fl := fl) ops Sys.init
    show (World.run ⟨[(fl, Builder.new)], [], []⟩ (ops.map (.call 0))).1.builders[0]? = _
    rw [show (⟨[(fl, Builder.new)], [], []⟩ : World α) = ⟨[(fl, Sys.init.b)], Sys.init.cells,
      Sys.init.handles⟩ from rfl, this]
    rfl
  | edited _ hm _ ih => exact .edited ih hm
  | salvaged ho hm _ => exact .edited ho hm
  | replaced _ _ ih => exact .replaced ih

/-! ## What is asked -/

/-- A `PartialEq` that notes the values it is asked about. -/
def noting (r : α → α → Bool) (m : List (α × α)) (a b : α) : List (α × α) × Bool :=
  (m ++ [(a, b)], r a b)

theorem comparing_answer (r : α → α → Bool) (p : μ → α → α → μ × Bool)
    (hp : ∀ m a b, (p m a b).2 = r a b) : ∀ (l l' : List (Row α)) (m : μ),
    (comparing p m l l').2 = true ↔ l.length = l'.length ∧
      ∀ q ∈ l.zip l', q.1.depth = q.2.depth ∧ r q.1.data q.2.data = true ∧ q.1.span = q.2.span
  | [], [], m => by simp [comparing]
  | [], _ :: _, m => by simp [comparing]
  | _ :: _, [], m => by simp [comparing]
  | x :: l, y :: l', m => by
    have ih := comparing_answer r p hp l l' (p m x.data y.data).1
    simp only [comparing, hp, List.length_cons, List.zip_cons_cons, List.mem_cons, forall_eq_or_imp]
    by_cases h1 : x.depth = y.depth
    · simp only [h1, if_true, true_and]
      by_cases h2 : r x.data y.data = true ∧ x.span = y.span
      · rw [if_pos h2, ih]
        simp [h2.1, h2.2]
      · rw [if_neg h2]
        simp only [Bool.false_eq_true, false_iff]
        rintro ⟨_, ⟨h3, h4⟩, _⟩
        exact h2 ⟨h3, h4⟩
    · simp [h1]

/-- The pairs noted are those of the first `n` rows; up to the last of them all rows match. -/
theorem comparing_asked (r : α → α → Bool) : ∀ (l l' : List (Row α)) (m : List (α × α)),
    ∃ n, (comparing (noting r) m l l').1 =
        m ++ ((l.zip l').take n).map (fun q => (q.1.data, q.2.data)) ∧
      n ≤ (l.zip l').length ∧
      (∀ (k : Nat) q, k < n → (l.zip l')[k]? = some q → q.1.depth = q.2.depth) ∧
      (∀ (k : Nat) q, k + 1 < n → (l.zip l')[k]? = some q → r q.1.data q.2.data = true ∧
        q.1.span = q.2.span) ∧
      (n < (l.zip l').length → (∃ q, (l.zip l')[n]? = some q ∧ q.1.depth ≠ q.2.depth) ∨
        (∃ k q, k + 1 = n ∧ (l.zip l')[k]? = some q ∧
          ¬ (r q.1.data q.2.data = true ∧ q.1.span = q.2.span)))
  | [], l', m => ⟨0, by cases l' <;> simp [comparing]⟩
  | _ :: _, [], m => ⟨0, by simp [comparing]⟩
  | x :: l, y :: l', m => by
    by_cases h1 : x.depth = y.depth
    · by_cases h2 : r x.data y.data = true ∧ x.span = y.span
      · obtain ⟨n, e1, e2, e3, e4, e5⟩ := comparing_asked r l l' (m ++ [(x.data, y.data)])
        refine ⟨n + 1, ?_, by simpa using e2, ?_, ?_, ?_⟩
        · have : (comparing (noting r) m (x :: l) (y :: l')) =
              comparing (noting r) (m ++ [(x.data, y.data)]) l l' := by
            simp [comparing, noting, h1, h2.1, h2.2]
          rw [this, e1]
          simp
        · intro k q hk hq
          cases k with
          | zero => simp at hq; subst hq; exact h1
          | succ k => exact e3 k q (by omega) (by simpa using hq)
        · intro k q hk hq
          cases k with
          | zero => simp at hq; subst hq; exact h2
          | succ k => exact e4 k q (by omega) (by simpa using hq)
        · intro hlt
          rcases e5 (by simpa using hlt) with ⟨q, h3, h4⟩ | ⟨k, q, h3, h4, h5⟩
          · exact .inl ⟨q, by simpa using h3, h4⟩
          · exact .inr ⟨k + 1, q, by omega, by simpa using h4, h5⟩
      · refine ⟨1, ?_, by simp, ?_, ?_, ?_⟩
        · have h2' : ¬ ((noting r m x.data y.data).2 = true ∧ x.span = y.span) := h2
          rw [comparing, if_pos h1]
          dsimp only
          rw [if_neg h2']
          simp [noting]
        · intro k q hk hq
          have : k = 0 := by omega
          subst this
          simp at hq; subst hq; exact h1
        · intro k q hk hq; omega
        · intro _
          exact .inr ⟨0, (x, y), rfl, rfl, h2⟩
    · refine ⟨0, by simp [comparing, h1], Nat.zero_le _, fun k q hk => by omega,
        fun k q hk => by omega, fun _ => .inl ⟨(x, y), rfl, h1⟩⟩

/-! ## Nested lists -/

/-- Rows that match. -/
def RowsMatch (r : α → α → Bool) : List (Nat × α × Span) → List (Nat × α × Span) → Prop
  | [], [] => True
  | x :: l, y :: l' => (x.1 = y.1 ∧ r x.2.1 y.2.1 = true ∧ x.2.2 = y.2.2) ∧ RowsMatch r l l'
  | _, _ => False

theorem match_depths (r : α → α → Bool) (F : Forest (α × Span)) : ∀ (G : Forest (α × Span)) (d : Nat)
    (A B : List (Nat × α × Span)), Below d A → Below d B →
    (RowsMatch r (F.depths d ++ A) (G.depths d ++ B) ↔ F.Match r G ∧ RowsMatch r A B) := by
  induction F with
  | nil =>
    intro G d A B hA hB
    cases G with
    | nil => simp [depths, Forest.Match]
    | cons y k' r' =>
      simp only [depths, List.nil_append, List.cons_append, Forest.Match, false_and, iff_false]
      intro h
      cases A with
      | nil => exact h
      | cons a A =>
        have := hA a rfl
        have := h.1.1
        simp only at this
        omega
  | cons x k l ihk ihl =>
    intro G d A B hA hB
    cases G with
    | nil =>
      simp only [depths, List.nil_append, List.cons_append, Forest.Match, false_and, iff_false]
      intro h
      cases B with
      | nil => exact h
      | cons b B =>
        have := hB b rfl
        have := h.1.1
        simp only at this
        omega
    | cons y k' l' =>
      have hb : ∀ (r : Forest (α × Span)) (A : List (Nat × α × Span)), Below d A →
          Below (d + 1) (r.depths d ++ A) := by
        intro r A hA p hp
        cases r with
        | nil => have := hA p (by simpa [depths] using hp); omega
        | cons z _ _ =>
          simp only [depths, List.cons_append, List.head?_cons, Option.mem_some_iff] at hp
          subst hp; simp
      simp only [depths, List.cons_append, List.append_assoc, Forest.Match, RowsMatch, true_and]
      rw [ihk k' (d + 1) _ _ (hb l A hA) (hb l' B hB), ihl l' d A B hA hB]
      simp only [and_assoc]

theorem rowsMatch_zip (r : α → α → Bool) : ∀ (l l' : List (Nat × α × Span)),
    RowsMatch r l l' ↔ l.length = l'.length ∧
      ∀ q ∈ l.zip l', q.1.1 = q.2.1 ∧ r q.1.2.1 q.2.2.1 = true ∧ q.1.2.2 = q.2.2.2
  | [], [] => by simp [RowsMatch]
  | [], _ :: _ => by simp [RowsMatch]
  | _ :: _, [] => by simp [RowsMatch]
  | x :: l, y :: l' => by
    simp only [RowsMatch, rowsMatch_zip r l l', List.length_cons, List.zip_cons_cons, List.mem_cons,
      forall_eq_or_imp, Nat.add_right_cancel_iff]
    constructor
    · rintro ⟨a, b, c⟩; exact ⟨b, a, c⟩
    · rintro ⟨b, a, c⟩; exact ⟨a, b, c⟩

/-- The rows of a nested list. -/
def rowsOf (F : Forest (α × Span)) : List (Row α) :=
  (F.depths 0).map fun p => ⟨(p.1 : Int), p.2.1, p.2.2⟩

theorem comparing_rowsOf (r : α → α → Bool) (p : μ → α → α → μ × Bool)
    (hp : ∀ m a b, (p m a b).2 = r a b) (F G : Forest (α × Span)) (m : μ) :
    (comparing p m (rowsOf F) (rowsOf G)).2 = true ↔ F.Match r G := by
  have h := match_depths r F G 0 [] [] (by simp [Below]) (by simp [Below])
  simp only [List.append_nil, RowsMatch, and_true] at h
  rw [← h, comparing_answer r p hp, rowsMatch_zip, rowsOf, rowsOf, List.zip_map]
  simp only [List.length_map]
  constructor
  · rintro ⟨h1, h2⟩
    refine ⟨h1, fun q hq => ?_⟩
    have := h2 _ (List.mem_map.2 ⟨_, hq, rfl⟩)
    exact ⟨Int.ofNat.inj this.1, this.2.1, this.2.2⟩
  · rintro ⟨h1, h2⟩
    refine ⟨h1, fun q hq => ?_⟩
    obtain ⟨a, ha, rfl⟩ := List.mem_map.1 hq
    have := h2 _ ha
    exact ⟨congrArg Int.ofNat this.1, this.2.1, this.2.2⟩

/-- Rows are determined by the tree. -/
theorem ListedBy.unique {t : Tree α} {l l' : List (Row α)} (h : ListedBy t l) (h' : ListedBy t l') :
    l = l' := by
  obtain ⟨is, h1, h2⟩ := h
  obtain ⟨js, h3, h4⟩ := h'
  rw [h2] at h4
  simp only [Option.some.injEq] at h4
  clear h2
  induction l generalizing is js l' with
  | nil =>
    cases l' with
    | nil => rfl
    | cons y l' =>
      cases js with
      | nil => simp at h3
      | cons j js =>
        cases is with
        | nil => simp at h4
        | cons => simp at h1
  | cons x l ih =>
    cases is with
    | nil => simp at h1
    | cons i is =>
      cases l' with
      | nil =>
        cases js with
        | nil => simp at h4
        | cons => simp at h3
      | cons y l' =>
        cases js with
        | nil => simp at h3
        | cons j js =>
          simp only [List.zip_cons_cons, List.map_cons, List.cons.injEq, Prod.mk.injEq,
            Option.some.injEq] at h4
          obtain ⟨⟨e1, _, e2, e3⟩, h4⟩ := h4
          rw [ih is (by simpa using h1) js (by simpa using h3) h4]
          cases x; cases y
          simp_all

theorem listedBy_content {t : Tree α} {F : Forest (Lab α)} (h : t.listing = some F.listing) :
    ListedBy t (rowsOf F.content) := by
  refine ⟨(F.depths 0).map (·.2.id), by simp [rowsOf, Forest.content, depths_map], ?_⟩
  rw [h, rowsOf, Forest.content, depths_map, List.map_map, Forest.listing]
  congr 1
  generalize F.depths 0 = l
  induction l with
  | nil => rfl
  | cons x l ih =>
    simp only [List.map_cons, List.zip_cons_cons, ih]
    rfl

end Syntree
