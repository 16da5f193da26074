import Verif.Model.Keys

/-!
# C102: spans of any type of index, and ids, as keys

The comparison and the hash of the type of index are arbitrary functions. What they have to satisfy
is what the traits `Eq`, `Ord` and `Hash` ask of them.
-/

namespace Syntree

variable {ι κ μ σ : Type}

/-- C102: `==` on spans holds exactly if it holds for both ends, for any `==` of the indexes, also
between spans of different types of index; comparing with a reference is the same. It is reflexive,
symmetric or transitive if the `==` of the indexes is, and it is equality if that is. -/
theorem C102_span_eq (e : ι → κ → Bool) :
    (∀ (a : SpanOf ι) (b : SpanOf κ),
      a.eq e b = true ↔ e a.start b.start = true ∧ e a.stop b.stop = true) ∧
    (∀ (e' : κ → ι → Bool), (∀ i j, e i j = e' j i) →
      ∀ (a : SpanOf ι) (b : SpanOf κ), a.eq e b = b.eq e' a) ∧
    (∀ (e' : κ → μ → Bool) (e'' : ι → μ → Bool),
      (∀ i j k, e i j = true → e' j k = true → e'' i k = true) →
      ∀ (a : SpanOf ι) (b : SpanOf κ) (c : SpanOf μ),
        a.eq e b = true → b.eq e' c = true → a.eq e'' c = true) ∧
    (∀ r : ι → ι → Bool, (∀ i, r i i = true) → ∀ a : SpanOf ι, a.eq r a = true) ∧
    (∀ r : ι → ι → Bool, (∀ i j, r i j = true ↔ i = j) →
      ∀ a b : SpanOf ι, (a.eq r b = true ↔ a = b)) ∧
    (∀ (r : ι → ι → Bool) (a b : SpanOf ι), a.eqRef r b = a.eq r b ∧ a.refEq r b = a.eq r b) := by
  refine ⟨fun a b => by simp [SpanOf.eq], fun e' h a b => by simp [SpanOf.eq, h],
    fun e' e'' h a b c h1 h2 => ?_, fun r h a => by simp [SpanOf.eq, h], fun r h a b => ?_,
    fun r a b => ⟨rfl, rfl⟩⟩
  · simp only [SpanOf.eq, Bool.and_eq_true] at *
    exact ⟨h _ _ _ h1.1 h2.1, h _ _ _ h1.2 h2.2⟩
  · cases a; cases b
    simp [SpanOf.eq, h]

/-- C102: spans can be keys of a `HashMap`: if equal indexes hash alike, then equal spans hash alike,
for every hasher. And nothing is lost: if what indexes write tells where it ends and which index it
was (up to `==`), so does what spans write. -/
theorem C102_span_hash (e : ι → ι → Bool) :
    (∀ h : ι → σ → σ, (∀ i j s, e i j = true → h i s = h j s) →
      ∀ (a b : SpanOf ι) (s : σ), a.eq e b = true → a.hash h s = b.hash h s) ∧
    (∀ w : ι → List κ,
      (∀ i j l l', w i ++ l = w j ++ l' → e i j = true ∧ l = l') →
      ∀ (a b : SpanOf ι) (l l' : List κ),
        a.hash (fun i s => s ++ w i) [] ++ l = b.hash (fun i s => s ++ w i) [] ++ l' →
        a.eq e b = true ∧ l = l') := by
  refine ⟨fun h hh a b s hab => ?_, fun w hw a b l l' hab => ?_⟩
  · simp only [SpanOf.eq, Bool.and_eq_true] at hab
    simp only [SpanOf.hash, hh _ _ _ hab.1, hh _ _ _ hab.2]
  · simp only [SpanOf.hash, List.nil_append, List.append_assoc] at hab
    obtain ⟨h1, h2⟩ := hw _ _ _ _ hab
    obtain ⟨h3, h4⟩ := hw _ _ _ _ h2
    exact ⟨by simp [SpanOf.eq, h1, h3], h4⟩

/-- C102: the order of spans is that of the starts, and that of the ends if the starts are the same.
If the order of the indexes is a total order that agrees with their `==`, then so is that of the
spans with theirs. -/
theorem C102_span_ord (e : ι → ι → Bool) (c : ι → ι → Ordering)
    (heq : ∀ i j, c i j = .eq ↔ e i j = true) (hswap : ∀ i j, c j i = (c i j).swap)
    (htrans : ∀ i j k, c i j ≠ .gt → c j k ≠ .gt → c i k ≠ .gt) :
    (∀ a b : SpanOf ι, a.cmp c b = .lt ↔
      c a.start b.start = .lt ∨ (e a.start b.start = true ∧ c a.stop b.stop = .lt)) ∧
    (∀ a b : SpanOf ι, a.cmp c b = .eq ↔ a.eq e b = true) ∧
    (∀ a b : SpanOf ι, b.cmp c a = (a.cmp c b).swap) ∧
    (∀ a b d : SpanOf ι, a.cmp c b ≠ .gt → b.cmp c d ≠ .gt → a.cmp c d ≠ .gt) := by
  have hlt : ∀ a b : SpanOf ι, a.cmp c b = .lt ↔
      c a.start b.start = .lt ∨ (e a.start b.start = true ∧ c a.stop b.stop = .lt) := by
    intro a b
    rw [← heq]
    unfold SpanOf.cmp
    cases c a.start b.start <;> simp
  have heq' : ∀ a b : SpanOf ι, a.cmp c b = .eq ↔ a.eq e b = true := by
    intro a b
    simp only [SpanOf.eq, Bool.and_eq_true, ← heq]
    unfold SpanOf.cmp
    cases c a.start b.start <;> simp
  have hsw : ∀ a b : SpanOf ι, b.cmp c a = (a.cmp c b).swap := by
    intro a b
    unfold SpanOf.cmp
    rw [hswap a.start b.start, hswap a.stop b.stop]
    cases c a.start b.start <;> rfl
  refine ⟨hlt, heq', hsw, fun a b d h1 h2 h3 => ?_⟩
  have key : ∀ a b : SpanOf ι, a.cmp c b ≠ .gt ↔ c a.start b.start = .lt ∨
      (c a.start b.start = .eq ∧ c a.stop b.stop ≠ .gt) := by
    intro a b
    unfold SpanOf.cmp
    cases c a.start b.start <;> simp
  -- strictness of one of two steps
  have hst : ∀ i j k, c i j ≠ .gt → c j k ≠ .gt → c i k = .eq → c i j = .eq ∧ c j k = .eq := by
    intro i j k g1 g2 g3
    have g4 : c k i ≠ .gt := by rw [hswap i k, g3]; simp
    have k1 : c k j ≠ .gt := htrans _ _ _ g4 g1
    have k2 : c j i ≠ .gt := htrans _ _ _ g2 g4
    rw [hswap j k] at k1
    rw [hswap i j] at k2
    refine ⟨?_, ?_⟩
    · cases h : c i j
      · rw [h] at k2; exact absurd rfl k2
      · rfl
      · exact absurd h g1
    · cases h : c j k
      · rw [h] at k1; exact absurd rfl k1
      · rfl
      · exact absurd h g2
  refine absurd h3 ((key a d).2 ?_)
  have e1 := (key a b).1 h1
  have e2 := (key b d).1 h2
  have n1 : c a.start b.start ≠ .gt := by rcases e1 with h | h <;> simp [h]
  have n2 : c b.start d.start ≠ .gt := by rcases e2 with h | h <;> simp [h]
  have n3 := htrans _ _ _ n1 n2
  cases h : c a.start d.start with
  | lt => exact Or.inl rfl
  | gt => exact absurd h n3
  | eq =>
    obtain ⟨g1, g2⟩ := hst _ _ _ n1 n2 h
    rw [g1] at e1
    rw [g2] at e2
    exact Or.inr ⟨rfl, htrans _ _ _ (by simpa using e1) (by simpa using e2)⟩

/-- C102: two pointers are equal, ordered and hashed as the numbers they were made from: equal
exactly for equal numbers, in the order of the numbers, and writing the same exactly if equal. -/
theorem C102_pointers {w v v' : Nat} {p q : RawPtr w} (hp : RawPtr.new w v = some p)
    (hq : RawPtr.new w v' = some q) :
    (p = q ↔ v = v') ∧ p.cmp q = compare v v' ∧
    (∀ (write : σ → Nat → σ) (s : σ), v = v' → p.hash write s = q.hash write s) ∧
    (p.hash (fun l n => l ++ [n]) [] = q.hash (fun l n => l ++ [n]) [] → v = v') := by
  have key : ∀ {v : Nat} {p : RawPtr w}, RawPtr.new w v = some p → p.raw = v + 1 := by
    intro v p h
    unfold RawPtr.new at h
    split at h
    · next hv =>
      simp only at h
      split at h
      · cases h
      · next hne =>
        cases h
        by_cases hlt : v + 1 < 2 ^ w
        · exact Nat.mod_eq_of_lt hlt
        · have : v + 1 = 2 ^ w := by omega
          rw [this, Nat.mod_self] at hne
          exact absurd rfl hne
    · cases h
  have e1 := key hp
  have e2 := key hq
  cases p with
  | mk x =>
  cases q with
  | mk y =>
  subst e1 e2
  refine ⟨by simp, ?_, fun write s h => by subst h; rfl, fun h => by simpa [RawPtr.hash] using h⟩
  simp only [RawPtr.cmp, Nat.compare_eq_ite_lt, Nat.add_lt_add_iff_right]

/-- Indexes with `==` and a hash of the last digit only: `3..15` and `13..5` are equal and hash
alike. -/
example : (⟨3, 15⟩ : SpanOf Nat).eq (fun i j => i % 10 == j % 10) ⟨13, 5⟩ = true ∧
    (⟨3, 15⟩ : SpanOf Nat).hash (fun i s => 31 * s + i % 10) 7 =
      (⟨13, 5⟩ : SpanOf Nat).hash (fun i s => 31 * s + i % 10) 7 :=
  ⟨rfl, (C102_span_hash (κ := Nat) (fun i j : Nat => i % 10 == j % 10)).1 _
    (fun i j s h => by simp only [beq_iff_eq] at h; simp [h]) _ _ _ rfl⟩

/-- The bytes of a fixed number of digits tell where they end. -/
example : (⟨3, 15⟩ : SpanOf Nat).hash (fun i s => s ++ [i]) [] = [3, 15] ∧
    ∀ a b : SpanOf Nat, ∀ l l' : List Nat,
      a.hash (fun i s => s ++ [i]) [] ++ l = b.hash (fun i s => s ++ [i]) [] ++ l' →
        a.eq (fun i j => i == j) b = true ∧ l = l' :=
  ⟨rfl, (C102_span_hash (σ := Nat) (fun i j : Nat => i == j)).2 (fun i => [i])
    (fun i j l l' h => by simpa using h)⟩

example : (⟨3, 15⟩ : SpanOf Nat).cmp compare ⟨3, 16⟩ = .lt ∧
    ∀ a b d : SpanOf Nat, a.cmp compare b ≠ .gt → b.cmp compare d ≠ .gt → a.cmp compare d ≠ .gt :=
  ⟨rfl, (C102_span_ord (fun i j : Nat => i == j) compare (by simp) (fun i j => (Nat.compare_swap i j).symm)
    (by simp only [ne_eq, Nat.compare_eq_gt]; omega)).2.2.2⟩

example : ∃ p q : RawPtr 8, RawPtr.new 8 3 = some p ∧ RawPtr.new 8 250 = some q ∧ p.cmp q = .lt :=
  ⟨⟨4⟩, ⟨251⟩, rfl, rfl, (C102_pointers (σ := Nat) (v := 3) (v' := 250) rfl rfl).2.1⟩

end Syntree
