import Verif.Proof.EditRun
import Verif.Proof.Macro

/-! What the copying machine makes of a nested list. -/

namespace Syntree

variable {α : Type} {fl : Flavor}

open Forest

/-! ### Sizes -/

/-- The length of the text of a nested list. -/
def textOf (ik : IndexKind) : Forest (Lab α) → Nat
  | .nil => 0
  | .cons x .nil r => x.span.len ik + textOf ik r
  | .cons _ k r => textOf ik k + textOf ik r

/-- The nested list as it is copied by `modify`. -/
def laid (ik : IndexKind) (pos i : Nat) : Forest (Lab α) → Forest (Lab α)
  | .nil => .nil
  | .cons x .nil r =>
    .cons ⟨i, x.data, ⟨pos, pos + x.span.len ik⟩⟩ .nil (laid ik (pos + x.span.len ik) (i + 1) r)
  | .cons x k r =>
    .cons ⟨i, x.data, ⟨pos, pos + textOf ik k⟩⟩ (laid ik pos (i + 1) k)
      (laid ik (pos + textOf ik k) (i + 1 + k.size) r)

theorem tokenLen_eq (ik : IndexKind) (sp : Span) : Lit.tokenLen ik (sp.stop - sp.start) = sp.len ik := by
  cases ik <;> rfl

theorem textOf_eq (ik : IndexKind) : ∀ F : Forest (Lab α), F.literal.len ik = textOf ik F
  | .nil => rfl
  | .cons x .nil r => by
    simp only [Forest.literal, Lit.len, textOf, tokenLen_eq, textOf_eq ik r]
  | .cons x (.cons y k' r') r => by
    simp only [Forest.literal, Lit.len]
    rw [textOf_eq ik r]
    have := textOf_eq ik (.cons y k' r')
    simp only [textOf]
    rw [← this]

theorem count_literal : ∀ F : Forest (Lab α), F.literal.count = F.size
  | .nil => rfl
  | .cons x .nil r => by simp only [Forest.literal, Lit.count, Forest.size, count_literal r]
  | .cons x (.cons y k' r') r => by
    have := count_literal (.cons y k' r')
    simp only [Forest.literal, Lit.count, Forest.size] at this ⊢
    rw [count_literal r, this]

theorem laid_eq (ik : IndexKind) : ∀ (F : Forest (Lab α)) (pos i : Nat),
    F.literal.layout ik pos i = laid ik pos i F
  | .nil, _, _ => rfl
  | .cons x .nil r, pos, i => by
    simp only [Forest.literal, Lit.layout, laid, tokenLen_eq, laid_eq ik r]
  | .cons x (.cons y k' r') r, pos, i => by
    have h1 := laid_eq ik (.cons y k' r') pos (i + 1)
    have h2 := textOf_eq ik (.cons y k' r')
    have h3 := count_literal (.cons y k' r')
    rw [Forest.literal, Lit.layout, laid, h1, h2, h3, laid_eq ik r]
    all_goals simp

theorem laid_inner (ik : IndexKind) (pos i : Nat) (x : Lab α) {k : Forest (Lab α)} (r : Forest (Lab α))
    (hk : k ≠ .nil) : laid ik pos i (.cons x k r) =
      .cons ⟨i, x.data, ⟨pos, pos + textOf ik k⟩⟩ (laid ik pos (i + 1) k)
      (laid ik (pos + textOf ik k) (i + 1 + k.size) r) := by
  cases k with
  | nil => exact absurd rfl hk
  | cons => rw [laid]; simp

theorem textOf_inner (ik : IndexKind) (x : Lab α) {k : Forest (Lab α)} (r : Forest (Lab α))
    (hk : k ≠ .nil) : textOf ik (.cons x k r) = textOf ik k + textOf ik r := by
  cases k with
  | nil => exact absurd rfl hk
  | cons => rw [textOf]; simp

theorem laid_nil_iff (ik : IndexKind) (pos i : Nat) (F : Forest (Lab α)) :
    laid ik pos i F = .nil ↔ F = .nil := by
  cases F with
  | nil => simp [laid]
  | cons x k r => cases k <;> simp [laid]

theorem laid_size (ik : IndexKind) : ∀ (F : Forest (Lab α)) (pos i : Nat), (laid ik pos i F).size = F.size
  | .nil, _, _ => rfl
  | .cons x .nil r, pos, i => by simp only [laid, Forest.size, laid_size ik r]
  | .cons x (.cons y k' r') r, pos, i => by
    rw [laid_inner _ _ _ _ _ (by simp)]
    simp only [Forest.size, laid_size ik r]
    have := laid_size ik (.cons y k' r') pos (i + 1)
    simp only [Forest.size] at this
    omega

theorem textOf_append (ik : IndexKind) : ∀ (F G : Forest (Lab α)),
    textOf ik (F ++ G) = textOf ik F + textOf ik G
  | .nil, G => by simp [textOf]
  | .cons x .nil r, G => by
    simp only [cons_append, textOf, textOf_append ik r G]; omega
  | .cons x (.cons y k' r') r, G => by
    rw [cons_append, textOf_inner ik x (k := .cons y k' r') _ (by simp),
      textOf_inner ik x (k := .cons y k' r') r (by simp), textOf_append ik r G]
    omega

theorem laid_append (ik : IndexKind) : ∀ (F G : Forest (Lab α)) (pos i : Nat),
    laid ik pos i (F ++ G) = laid ik pos i F ++ laid ik (pos + textOf ik F) (i + F.size) G
  | .nil, G, _, _ => by simp [textOf, laid, Forest.size]
  | .cons x .nil r, G, pos, i => by
    simp only [cons_append, textOf, laid, laid_append ik r G, Forest.size]
    rw [show pos + x.span.len ik + textOf ik r = pos + (x.span.len ik + textOf ik r) by omega,
      show i + 1 + r.size = i + (1 + 0 + r.size) by omega]
  | .cons x (.cons y k' r') r, G, pos, i => by
    rw [cons_append, laid_inner ik pos i x (k := .cons y k' r') _ (by simp),
      laid_inner ik pos i x (k := .cons y k' r') r (by simp),
      textOf_inner ik x (k := .cons y k' r') r (by simp), laid_append ik r G, cons_append]
    simp only [Forest.size]
    rw [show ∀ a b : Nat, pos + a + b = pos + (a + b) from fun a b => by omega,
      show i + 1 + (1 + k'.size + r'.size) + r.size = i + (1 + (1 + k'.size + r'.size) + r.size) by omega]

theorem shorten_append : ∀ (F G : Forest (Lab α)), (F ++ G).shorten = F.shorten ++ G.shorten
  | .nil, _ => rfl
  | .cons x k r, G => by simp only [cons_append, Forest.shorten, shorten_append r G]

theorem lastStop_cons (s : Nat) (x : Lab α) (k r : Forest (Lab α)) :
    (Forest.cons x k r).lastStop s =
      r.lastStop (match k with | .nil => x.span.stop | .cons .. => x.span.start) := by
  induction r generalizing s x k with
  | nil => cases k <;> simp [Forest.lastStop]
  | cons y k' r' _ ih =>
    have : (Forest.cons x k (.cons y k' r')).lastStop s = (Forest.cons y k' r').lastStop s := by
      cases k <;> simp [Forest.lastStop]
    rw [this, ih, ih]

theorem lastStop_append (s : Nat) (F G : Forest (Lab α)) :
    (F ++ G).lastStop s = G.lastStop (F.lastStop s) := by
  induction F generalizing s with
  | nil => simp [Forest.lastStop]
  | cons x k r _ ih => rw [cons_append, lastStop_cons, lastStop_cons, ih]

/-! ### The closed form of copying -/

/-- The end of the innermost open node after the children `L` have been added to it. -/
def endKids (L : Forest (Lab α)) : Stack α → Stack α
  | [] => []
  | (x, l) :: st => ({ x with span := ⟨x.span.start, L.lastStop x.span.stop⟩ }, l) :: st

/-- After a nested list has been copied. -/
def Nest.copied (ik : IndexKind) (n : Nest α) (F : Forest (Lab α)) : Nest α :=
  { n with
    cur := n.cur ++ (laid ik n.cursor n.count F).shorten
    stack := endKids (laid ik n.cursor n.count F) n.stack
    cursor := n.cursor + textOf ik F
    count := n.count + F.size }

theorem endKids_nil (st : Stack α) : endKids .nil st = st := by
  cases st <;> rfl

theorem copied_nil (ik : IndexKind) (n : Nest α) : n.copied ik .nil = n := by
  simp [Nest.copied, laid, Forest.shorten, endKids_nil, textOf, Forest.size]

theorem endKids_append (L M : Forest (Lab α)) (st : Stack α) :
    endKids M (endKids L st) = endKids (L ++ M) st := by
  cases st with
  | nil => rfl
  | cons p st => simp [endKids, lastStop_append]

theorem copied_append (ik : IndexKind) (n : Nest α) (F G : Forest (Lab α)) :
    (n.copied ik F).copied ik G = n.copied ik (F ++ G) := by
  simp only [Nest.copied, laid_append, shorten_append, append_assoc, endKids_append, textOf_append,
    size_append, Nat.add_assoc]

theorem copied_leaf (ik : IndexKind) (n : Nest α) (x : Lab α) :
    n.copied ik (.cons x .nil .nil) =
      { n with cursor := n.cursor + x.span.len ik }.addLeaf x.data ⟨n.cursor, n.cursor + x.span.len ik⟩ := by
  simp only [Nest.copied, Nest.addLeaf, laid, Forest.shorten, textOf, Forest.size]
  congr 1

theorem copied_inner (ik : IndexKind) (n : Nest α) (x : Lab α) {k : Forest (Lab α)} (hk : k ≠ .nil) :
    n.copied ik (.cons x k .nil) =
      ((n.addOpen x.data (Span.point n.cursor)).copied ik k).shut := by
  rw [Nest.copied, laid_inner _ _ _ _ _ hk, textOf_inner _ _ _ hk]
  simp only [Nest.copied, Nest.addOpen, endKids, Nest.shut, laid, Forest.shorten, textOf, Forest.size,
    Span.point, nil_append, Nest.mk.injEq, and_true, Nat.add_zero]
  refine ⟨?_, ?_, ?_⟩
  · have hl : laid ik n.cursor (n.count + 1) k ≠ .nil := fun h => hk ((laid_nil_iff _ _ _ _).1 h)
    cases hL : laid ik n.cursor (n.count + 1) k with
    | nil => exact absurd hL hl
    | cons y k' r' => rw [lastStop_cons, lastStop_cons]
  · have hl : laid ik n.cursor (n.count + 1) k ≠ .nil := fun h => hk ((laid_nil_iff _ _ _ _).1 h)
    cases n.stack with
    | nil => rfl
    | cons p st =>
      simp only [Nest.endParent]
      cases hL : laid ik n.cursor (n.count + 1) k with
      | nil => exact absurd hL hl
      | cons y k' r' => rfl
  · exact ⟨trivial, by omega⟩

theorem copied_count (ik : IndexKind) (n : Nest α) (F : Forest (Lab α)) :
    (n.copied ik F).count = n.count + F.size := rfl

theorem copied_cursor (ik : IndexKind) (n : Nest α) (F : Forest (Lab α)) :
    (n.copied ik F).cursor = n.cursor + textOf ik F := rfl

/-! ### The machine copies -/

/-- The machine gets from one state to another. -/
def Steps (fl : Flavor) (S : List Nat) (m m' : EM α) : Prop :=
  ∃ j, ∀ fuel, EM.run fl S (fuel + j) m = EM.run fl S fuel m'

theorem Steps.refl {S : List Nat} (m : EM α) : Steps fl S m m := ⟨0, fun _ => rfl⟩

theorem Steps.trans {S : List Nat} {m m' m'' : EM α} (h : Steps fl S m m') (h' : Steps fl S m' m'') :
    Steps fl S m m'' := by
  obtain ⟨j, h⟩ := h
  obtain ⟨j', h'⟩ := h'
  exact ⟨j' + j, fun fuel => by rw [← Nat.add_assoc, h, h']⟩

theorem Steps.one {S : List Nat} {x : Lab α} {k r : Forest (Lab α)} {ctx : ECtx α} {n : Nest α}
    {m : EM α} (h : EM.step fl S x k r ctx n = .ok m) : Steps fl S (.at x k r ctx n) m :=
  ⟨1, fun fuel => by simp only [EM.run, h]⟩

/-- What may be copied without exceeding the flavor. -/
def Room (fl : Flavor) (n : Nest α) (F : Forest (Lab α)) : Prop :=
  n.count + F.size ≤ 2 ^ fl.width - 1 ∧ Lit.Addressable fl.ik (n.cursor + textOf fl.ik F) ∧
    (fl.ik = .empty → n.cursor = 0)

theorem advance_of {ik : IndexKind} {c : Nat} {sp : Span} (h : Lit.Addressable ik (c + sp.len ik))
    (h0 : ik = .empty → c = 0) : advance ik c sp = some (c + sp.len ik) := by
  unfold advance
  split
  · rename_i he
    simp only [Span.isEmpty, beq_iff_eq] at he
    cases ik <;> simp [Span.len, IndexKind.lenTo, he]
  · cases ik with
    | bits w => simp only [IndexKind.checkedAddLen]; exact if_pos h
    | empty => simp [IndexKind.checkedAddLen, Span.len, IndexKind.lenTo, h0]

theorem textOf_empty : ∀ F : Forest (Lab α), textOf .empty F = 0
  | .nil => rfl
  | .cons x .nil r => by simp [textOf, Span.len, IndexKind.lenTo, textOf_empty r]
  | .cons x (.cons y k' r') r => by
    rw [textOf_inner _ _ _ (by simp), textOf_empty r, textOf_empty (.cons y k' r')]

theorem Room.left {n : Nest α} {F G : Forest (Lab α)} (h : Room fl n (F ++ G)) : Room fl n F := by
  obtain ⟨h1, h2, h3⟩ := h
  rw [size_append] at h1
  rw [textOf_append] at h2
  exact ⟨by omega, h2.mono (by omega), h3⟩

theorem Room.right {n : Nest α} {F G : Forest (Lab α)} (h : Room fl n (F ++ G)) :
    Room fl (n.copied fl.ik F) G := by
  obtain ⟨h1, h2, h3⟩ := h
  rw [size_append] at h1
  rw [textOf_append] at h2
  refine ⟨by rw [copied_count]; omega, by rw [copied_cursor, Nat.add_assoc]; exact h2, fun he => ?_⟩
  rw [copied_cursor, h3 he, he, textOf_empty]

theorem Room.not_full {n : Nest α} {x : Lab α} {k r : Forest (Lab α)} (h : Room fl n (.cons x k r)) :
    ¬ n.full fl = true := by
  rw [not_full_iff]
  have := h.1
  simp only [Forest.size] at this
  omega

/-- No change applies to the ids from `a` on, `b` of them. -/
def Misses (S : List Nat) (a b : Nat) : Prop := ∀ j ∈ S, j < a ∨ a + b ≤ j

theorem goto_cons_nil {x : Lab α} {K r : Forest (Lab α)} {ctx : ECtx α} {n : Nest α} :
    EM.leave ((x, K, r) :: ctx) n = EM.goto r ctx n.shut := by
  cases r <;> rfl

theorem Room.kids {n : Nest α} {x : Lab α} {k r : Forest (Lab α)} (hk : k ≠ .nil)
    (h : Room fl n (.cons x k r)) : Room fl (n.addOpen x.data (Span.point n.cursor)) k := by
  obtain ⟨h1, h2, h3⟩ := h
  rw [textOf_inner _ _ _ hk] at h2
  simp only [Forest.size] at h1
  refine ⟨?_, ?_, h3⟩
  · show n.count + 1 + k.size ≤ _
    omega
  · show Lit.Addressable fl.ik (n.cursor + textOf fl.ik k)
    exact h2.mono (by omega)

/-- Copying one node with all of its children, if its children are copied. -/
theorem emit_steps {S : List Nat} {x : Lab α} {k R : Forest (Lab α)} {ctx : ECtx α} {n : Nest α}
    (hr : Room fl n (.cons x k .nil)) (hm : Misses S (n.count + 1) k.size)
    (ihk : ∀ (ctx : ECtx α) (n : Nest α) (G : Forest (Lab α)), Room fl n k → Misses S n.count k.size →
      Steps fl S (EM.goto (k ++ G) ctx n) (EM.goto G ctx (n.copied fl.ik k))) :
    ∃ m, EM.emit fl x k R ctx n = .ok m ∧
      Steps fl S m (EM.goto R ctx (n.copied fl.ik (.cons x k .nil))) := by
  cases k with
  | nil =>
    obtain ⟨h1, h2, h3⟩ := hr
    simp only [textOf] at h2
    simp only [EM.emit, advance_of h2 h3]
    exact ⟨_, rfl, by rw [copied_leaf]; exact Steps.refl _⟩
  | cons y k' r' =>
    refine ⟨_, rfl, ?_⟩
    have := ihk ((x, .cons y k' r', R) :: ctx) (n.addOpen x.data (Span.point n.cursor)) .nil
      (hr.kids (by simp)) hm
    rw [append_nil] at this
    rw [copied_inner _ _ _ (by simp)]
    have e : EM.goto .nil ((x, .cons y k' r', R) :: ctx)
        ((n.addOpen x.data (Span.point n.cursor)).copied fl.ik (.cons y k' r')) =
        EM.goto R ctx ((n.addOpen x.data (Span.point n.cursor)).copied fl.ik (.cons y k' r')).shut :=
      goto_cons_nil
    rw [e] at this
    exact this

/-- What no change applies to is copied. -/
theorem copy_steps {S : List Nat} (F : Forest (Lab α)) : ∀ (ctx : ECtx α) (n : Nest α)
    (G : Forest (Lab α)), Room fl n F → Misses S n.count F.size →
    Steps fl S (EM.goto (F ++ G) ctx n) (EM.goto G ctx (n.copied fl.ik F)) := by
  induction F with
  | nil => intro ctx n G _ _; rw [copied_nil]; exact Steps.refl _
  | cons x k r ihk ihr =>
    intro ctx n G hr hm
    have hr1 : Room fl n (.cons x k .nil) := Room.left (G := r) hr
    have hr2 : Room fl (n.copied fl.ik (.cons x k .nil)) r := Room.right (F := .cons x k .nil) hr
    obtain ⟨m, h1, h2⟩ := emit_steps (S := S) (R := r ++ G) (ctx := ctx) hr1
      (fun j hj => by have := hm j hj; simp only [Forest.size] at this; omega) ihk
    have h3 : EM.step fl S x k (r ++ G) ctx n = .ok m := by
      unfold EM.step
      rw [if_neg hr.not_full, if_neg, h1]
      intro hj
      have := hm _ hj
      simp only [Forest.size] at this
      omega
    have h4 := ihr ctx _ G hr2 (fun j hj => by
      have := hm j hj
      rw [copied_count]
      simp only [Forest.size] at this ⊢
      omega)
    rw [copied_append] at h4
    exact (Steps.one h3).trans (h2.trans h4)

/-! ### One removal -/

theorem lastPos_cons (x y : Lab α) (k k' r' : Forest (Lab α)) :
    (Forest.cons x k (.cons y k' r')).lastPos = 1 + k.size + (Forest.cons y k' r').lastPos := by
  rw [Forest.lastPos]; simp

theorem dropLast_cons (x y : Lab α) (k k' r' : Forest (Lab α)) :
    (Forest.cons x k (.cons y k' r')).dropLast = .cons x k (Forest.cons y k' r').dropLast := by
  rw [Forest.dropLast]; simp

theorem hitAt_lastPos : ∀ (F : Forest (Lab α)), F ≠ .nil → F.hitAt F.lastPos = F.dropLast
  | .nil, h => absurd rfl h
  | .cons x k .nil, _ => by simp [Forest.hitAt, Forest.lastPos, Forest.dropLast]
  | .cons x k (.cons y k' r'), _ => by
    rw [lastPos_cons, dropLast_cons, Forest.hitAt, if_neg (by omega), if_neg (by omega),
      ← hitAt_lastPos (.cons y k' r') (by simp)]
    congr 2
    omega

/-- Up to the last element of a run of siblings. -/
theorem reach_last : ∀ (F : Forest (Lab α)), F ≠ .nil → ∃ x k,
    F = F.dropLast ++ single x k ∧ F.lastPos = F.dropLast.size
  | .nil, h => absurd rfl h
  | .cons x k .nil, _ => ⟨x, k, rfl, rfl⟩
  | .cons x k (.cons y k' r'), _ => by
    obtain ⟨z, K, h1, h2⟩ := reach_last (.cons y k' r') (by simp)
    refine ⟨z, K, ?_, ?_⟩
    · rw [dropLast_cons, cons_append, ← h1]
    · rw [lastPos_cons, dropLast_cons, h2, Forest.size]

theorem copied_trunc (ik : IndexKind) (n : Nest α) (x : Lab α) (k : Forest (Lab α)) :
    n.copied ik (.cons ⟨x.id, x.data, ⟨0, 0⟩⟩ k .nil) =
      ((n.addOpen x.data (Span.point n.cursor)).copied ik k).shut := by
  by_cases hk : k = .nil
  · subst hk
    rw [copied_nil, copied_leaf]
    have : Span.len ik ⟨0, 0⟩ = 0 := by cases ik <;> rfl
    simp only [this, Nat.add_zero, Nest.addOpen, Nest.addLeaf, Nest.shut, Span.point]
  · rw [copied_inner _ _ _ hk]

/-- The only change is the removal of output id `c`. -/
def Only (S : List Nat) (c : Nat) : Prop := ∀ j, j ∈ S ↔ j = c

theorem Only.misses {S : List Nat} {c a b : Nat} (h : Only S c) (hc : c < a ∨ a + b ≤ c) :
    Misses S a b := by
  intro j hj; rw [(h j).1 hj]; exact hc

theorem emit_ctx {fl : Flavor} {x : Lab α} {k r : Forest (Lab α)} (hk : k ≠ .nil) (ctx : ECtx α) (n : Nest α) :
    EM.emit fl x k r ctx n =
      .ok (EM.goto k ((x, k, r) :: ctx) (n.addOpen x.data (Span.point n.cursor))) := by
  cases k with
  | nil => exact absurd rfl hk
  | cons => rfl

theorem hit_size (F : Forest (Lab α)) : ∀ i, i < F.size → i ≠ F.lastPos → i < (F.hitAt i).size := by
  induction F with
  | nil => intro i hi; simp [Forest.size] at hi
  | cons x k r ihk ihr =>
    intro i hi hl
    simp only [Forest.hitAt]
    by_cases h0 : i = 0
    · rw [if_pos h0]
      cases r with
      | nil => exact absurd h0 hl
      | cons y k' r' => simp only [Forest.size]; omega
    · rw [if_neg h0]
      by_cases h1 : i ≤ k.size
      · rw [if_pos h1]
        have hk : k ≠ .nil := by rintro rfl; simp only [Forest.size] at h1; omega
        by_cases h2 : i - 1 = k.lastPos
        · rw [if_pos h2]
          obtain ⟨z, K, _, e2⟩ := reach_last k hk
          simp only [Forest.size]; omega
        · rw [if_neg h2]
          have := ihk (i - 1) (by omega) h2
          simp only [Forest.size]; omega
      · rw [if_neg h1]
        have := ihr (i - 1 - k.size) (by simp only [Forest.size] at hi; omega) (by
            cases r with
            | nil => simp only [Forest.size] at hi; omega
            | cons => rw [lastPos_cons] at hl; omega)
        simp only [Forest.size]; omega

/-- Copying with one hit that is not the last of its level. -/
theorem hit_steps {S : List Nat} (F : Forest (Lab α)) : ∀ (i : Nat) (ctx : ECtx α) (n : Nest α),
    i < F.size → i ≠ F.lastPos → Room fl n (F.hitAt i) → Only S (n.count + i) →
    Steps fl S (EM.goto F ctx n) (EM.leave ctx (n.copied fl.ik (F.hitAt i))) := by
  induction F with
  | nil => intro i ctx n hi; simp [Forest.size] at hi
  | cons x k r ihk ihr =>
    intro i ctx n hi hl hr hS
    by_cases h0 : i = 0
    · subst h0
      cases r with
      | nil => exact absurd rfl hl
      | cons y k' r' =>
        have e : (Forest.cons x k (.cons y k' r')).hitAt 0 = .cons y k' r' := by simp [Forest.hitAt]
        rw [e] at hr ⊢
        obtain ⟨m, h1, h2⟩ := emit_steps (S := S) (R := r') (ctx := ctx) (Room.left (G := r') hr)
          (hS.misses (by omega)) (copy_steps k')
        have h3 : EM.step fl S x k (.cons y k' r') ctx n = .ok m := by
          unfold EM.step
          rw [if_neg hr.not_full, if_pos ((hS n.count).2 rfl)]
          exact h1
        have h4 := copy_steps (S := S) r' ctx _ .nil (Room.right (F := .cons y k' .nil) hr)
          (hS.misses (by rw [copied_count]; simp only [Forest.size]; omega))
        rw [append_nil, copied_append] at h4
        exact (Steps.one h3).trans (h2.trans h4)
    · have hnot : ¬ n.count ∈ S := by rw [hS]; omega
      by_cases h1 : i ≤ k.size
      · have hk : k ≠ .nil := by rintro rfl; simp only [Forest.size] at h1; omega
        have first : ∀ {f : Forest (Lab α)}, Room fl n f → f ≠ .nil →
            Steps fl S (EM.goto (.cons x k r) ctx n)
              (EM.goto k ((x, k, r) :: ctx) (n.addOpen x.data (Span.point n.cursor))) := by
          intro f hf hf0
          apply Steps.one
          unfold EM.step
          cases f with
          | nil => exact absurd rfl hf0
          | cons => rw [if_neg hf.not_full, if_neg hnot, emit_ctx hk]
        by_cases h2 : i - 1 = k.lastPos
        · have e : (Forest.cons x k r).hitAt i =
              .cons ⟨x.id, x.data, ⟨0, 0⟩⟩ k.dropLast (.cons x k r) := by
            rw [Forest.hitAt, if_neg h0, if_pos h1, if_pos h2]
          rw [e] at hr ⊢
          refine (first hr (by simp)).trans ?_
          obtain ⟨z, K, e1, e2⟩ := reach_last k hk
          have hrT : Room fl n (.cons ⟨x.id, x.data, ⟨0, 0⟩⟩ k.dropLast .nil) :=
            Room.left (G := .cons x k r) hr
          have hr2 : Room fl (n.copied fl.ik (.cons ⟨x.id, x.data, ⟨0, 0⟩⟩ k.dropLast .nil))
            (.cons x k r) := Room.right (F := .cons ⟨x.id, x.data, ⟨0, 0⟩⟩ k.dropLast .nil) hr
          have hrD : Room fl (n.addOpen x.data (Span.point n.cursor)) k.dropLast := by
            by_cases hd : k.dropLast = .nil
            · rw [hd]
              refine ⟨?_, ?_, hr.2.2⟩
              · have := hrT.1
                rw [hd] at this
                exact this
              · exact hr.2.1.mono (Nat.le_add_right _ _)
            · exact Room.kids (x := ⟨x.id, x.data, ⟨0, 0⟩⟩) hd hrT
          have s1 := copy_steps (S := S) k.dropLast ((x, k, r) :: ctx)
            (n.addOpen x.data (Span.point n.cursor)) (single z K) hrD
            (hS.misses (by
              show _ ∨ n.count + 1 + _ ≤ _
              rw [← e2]; omega))
          rw [← e1] at s1
          refine s1.trans ?_
          have hsh := copied_trunc fl.ik n x k.dropLast
          obtain ⟨m, m1, m2⟩ := emit_steps (S := S) (R := r) (ctx := ctx) (Room.left (G := r) hr2)
            (hS.misses (by
              rw [copied_count]; simp only [Forest.size]; omega)) (copy_steps k)
          have s2 : EM.step fl S z K .nil ((x, k, r) :: ctx)
              ((n.addOpen x.data (Span.point n.cursor)).copied fl.ik k.dropLast) = .ok m := by
            unfold EM.step
            rw [if_neg, if_pos]
            · simp only
              rw [← hsh]; exact m1
            · rw [hS, copied_count]
              show n.count + 1 + _ = _
              rw [← e2]; omega
            · have := hr2.not_full
              rw [hsh, not_full_iff, Nest.shut_count] at this
              rwa [not_full_iff]
          have s3 := copy_steps (S := S) r ctx _ .nil (Room.right (F := .cons x k .nil) hr2)
            (hS.misses (by rw [copied_count, copied_count]; simp only [Forest.size]; omega))
          rw [append_nil] at s3
          have e3 := copied_append fl.ik (n.copied fl.ik (.cons ⟨x.id, x.data, ⟨0, 0⟩⟩ k.dropLast .nil))
            (.cons x k .nil) r
          rw [e3.trans (copied_append fl.ik n _ (.cons x k .nil ++ r))] at s3
          exact (Steps.one s2).trans (m2.trans s3)
        · have e : (Forest.cons x k r).hitAt i = .cons x (k.hitAt (i - 1)) r := by
            rw [Forest.hitAt, if_neg h0, if_pos h1, if_neg h2]
          rw [e] at hr ⊢
          refine (first hr (by simp)).trans ?_
          have hne : k.hitAt (i - 1) ≠ .nil := by
            cases k with
            | nil => exact absurd rfl hk
            | cons y k' r' =>
              simp only [Forest.hitAt]
              cases r' with
              | nil =>
                have : i - 1 ≠ 0 := h2
                rw [if_neg this]
                split
                · split <;> simp
                · simp
              | cons => split
                        · simp
                        · split
                          · split <;> simp
                          · simp
          have s1 := ihk (i - 1) ((x, k, r) :: ctx) (n.addOpen x.data (Span.point n.cursor)) (by omega)
            h2 (hr.kids hne) (by
              intro j; rw [hS]
              show _ ↔ j = n.count + 1 + (i - 1)
              omega)
          rw [goto_cons_nil, ← copied_inner _ _ _ hne] at s1
          have s2 := copy_steps (S := S) r ctx _ .nil (Room.right (F := .cons x (k.hitAt (i - 1)) .nil) hr)
            (hS.misses (by rw [copied_count]; simp only [Forest.size]; have := hit_size k (i - 1) (by omega) h2; omega))
          rw [append_nil, copied_append] at s2
          exact s1.trans s2
      · have e : (Forest.cons x k r).hitAt i = .cons x k (r.hitAt (i - 1 - k.size)) := by
          rw [Forest.hitAt, if_neg h0, if_neg h1]
        rw [e] at hr ⊢
        have s1 := copy_steps (S := S) (.cons x k .nil) ctx n r
          (Room.left (G := r.hitAt (i - 1 - k.size)) hr)
          (hS.misses (by simp only [Forest.size]; omega))
        have s2 := ihr (i - 1 - k.size) ctx (n.copied fl.ik (.cons x k .nil))
          (by simp only [Forest.size] at hi; omega) (by
            cases r with
            | nil => simp only [Forest.size] at hi; omega
            | cons => rw [lastPos_cons] at hl; omega)
          (Room.right (F := .cons x k .nil) hr) (by
            intro j; rw [hS, copied_count]; simp only [Forest.size]; omega)
        rw [copied_append] at s2
        exact s1.trans s2

/-! ### Whole runs -/

theorem run_more {S : List Nat} : ∀ (fuel k : Nat) (m : EM α),
    EM.run fl S fuel m ≠ .error .diverge → EM.run fl S (fuel + k) m = EM.run fl S fuel m
  | 0, _, _, h => absurd rfl h
  | fuel + 1, k, .done n, _ => by
    rw [show fuel + 1 + k = (fuel + k) + 1 by omega]; rfl
  | fuel + 1, k, .at x K r ctx n, h => by
    rw [show fuel + 1 + k = (fuel + k) + 1 by omega]
    simp only [EM.run] at h ⊢
    cases hs : EM.step fl S x K r ctx n with
    | error e => rfl
    | ok m =>
      rw [hs] at h
      exact run_more fuel k m h

theorem machine_of_steps {c : ChangeSet} {F : Forest (Lab α)} {n : Nest α}
    (h : Steps fl c.changes (EM.goto F [] Nest.init) (.done n)) : c.machine fl F = .ok n := by
  obtain ⟨j, h⟩ := h
  have h1 : EM.run fl c.changes (1 + j) (EM.goto F [] Nest.init) = .ok n := h 1
  have h2 : c.machine fl F ≠ .error .diverge := by
    intro he
    have := machine_total c F he
    simp at this
  unfold ChangeSet.machine at h2 ⊢
  generalize (c.changes.length + 1) * (F.size + 1) + 1 = N at h2 ⊢
  rw [← run_more N (1 + j) _ h2, Nat.add_comm, run_more _ _ _ (by rw [h1]; simp), h1]

/-- A flavor with more pointers and a longer index. -/
def Flavor.big (fl : Flavor) (w : Nat) : Flavor :=
  ⟨match fl.ik with | .bits v => .bits (v + w) | .empty => .empty, fl.width + w, fl.keepIdx⟩

theorem big_len (fl : Flavor) (w : Nat) (sp : Span) : sp.len (fl.big w).ik = sp.len fl.ik := by
  unfold Flavor.big
  cases fl.ik <;> rfl

theorem big_text (fl : Flavor) (w : Nat) : ∀ F : Forest (Lab α), textOf (fl.big w).ik F = textOf fl.ik F
  | .nil => rfl
  | .cons x .nil r => by simp only [textOf, big_len, big_text fl w r]
  | .cons x (.cons y k' r') r => by
    rw [textOf_inner _ x (k := .cons y k' r') r (by simp),
      textOf_inner _ x (k := .cons y k' r') r (by simp), big_text fl w r, big_text fl w (.cons y k' r')]

theorem big_laid (fl : Flavor) (w : Nat) : ∀ (F : Forest (Lab α)) (pos i : Nat),
    laid (fl.big w).ik pos i F = laid fl.ik pos i F
  | .nil, _, _ => rfl
  | .cons x .nil r, _, _ => by simp only [laid, big_len, big_laid fl w r]
  | .cons x (.cons y k' r') r, pos, i => by
    rw [laid_inner _ _ _ x (k := .cons y k' r') r (by simp),
      laid_inner _ _ _ x (k := .cons y k' r') r (by simp), big_laid fl w r,
      big_laid fl w (.cons y k' r'), big_text]

theorem big_copied (fl : Flavor) (w : Nat) (n : Nest α) (F : Forest (Lab α)) :
    n.copied (fl.big w).ik F = n.copied fl.ik F := by
  simp only [Nest.copied, big_laid, big_text]

theorem big_advance {w c c' : Nat} {sp : Span} (h : advance fl.ik c sp = some c') :
    advance (fl.big w).ik c sp = some c' := by
  have hl := big_len fl w sp
  unfold advance at h ⊢
  rw [hl]
  split at h
  · rename_i he; rw [if_pos he]; exact h
  · rename_i he
    rw [if_neg he]
    unfold Flavor.big
    cases hk : fl.ik with
    | empty => rw [hk] at h; exact h
    | bits v =>
      rw [hk] at h
      simp only [IndexKind.checkedAddLen] at h ⊢
      split at h
      · rename_i hlt
        rw [if_pos]
        · exact h
        · rw [Nat.pow_add]
          exact Nat.lt_of_lt_of_le hlt (Nat.le_mul_of_pos_right _ (Nat.two_pow_pos w))
      · simp at h

theorem big_emit {w : Nat} {x : Lab α} {k r : Forest (Lab α)} {ctx : ECtx α} {n : Nest α} {m : EM α}
    (h : EM.emit fl x k r ctx n = .ok m) : EM.emit (fl.big w) x k r ctx n = .ok m := by
  unfold EM.emit at h ⊢
  cases k with
  | nil =>
    simp only at h ⊢
    cases ha : advance fl.ik n.cursor x.span with
    | none => rw [ha] at h; simp at h
    | some c => rw [ha] at h; rw [big_advance ha]; exact h
  | cons => exact h

theorem big_full {w : Nat} {n : Nest α} (h : ¬ n.full fl = true) : ¬ n.full (fl.big w) = true := by
  rw [not_full_iff] at h ⊢
  have : 2 ^ fl.width ≤ 2 ^ (fl.big w).width := Nat.pow_le_pow_right (by omega) (Nat.le_add_right _ _)
  omega

theorem big_run {S : List Nat} {w : Nat} : ∀ (fuel : Nat) (m : EM α) {n : Nest α},
    EM.run fl S fuel m = .ok n → EM.run (fl.big w) S fuel m = .ok n
  | 0, _, _, h => by simp [EM.run] at h
  | fuel + 1, .done n, _, h => h
  | fuel + 1, .at x k r ctx n, n', h => by
    simp only [EM.run, EM.step] at h ⊢
    by_cases hf : n.full fl = true
    · rw [if_pos hf] at h; simp at h
    · rw [if_neg hf] at h
      rw [if_neg (big_full hf)]
      by_cases hS : n.count ∈ S
      · rw [if_pos hS] at h ⊢
        cases r with
        | cons y k' r' =>
          simp only at h ⊢
          cases he : EM.emit fl y k' r' ctx n with
          | error e => rw [he] at h; simp at h
          | ok m => rw [he] at h; rw [big_emit he]; exact big_run fuel m h
        | nil =>
          cases ctx with
          | nil => exact big_run fuel (.done n) h
          | cons p ctx =>
            obtain ⟨p, K, R⟩ := p
            simp only at h ⊢
            cases he : EM.emit fl p K R ctx n.shut with
            | error e => rw [he] at h; simp at h
            | ok m => rw [he] at h; rw [big_emit he]; exact big_run fuel m h
      · rw [if_neg hS] at h ⊢
        cases he : EM.emit fl x k r ctx n with
        | error e => rw [he] at h; simp at h
        | ok m => rw [he] at h; rw [big_emit he]; exact big_run fuel m h

theorem big_room (fl : Flavor) (F : Forest (Lab α)) :
    ∃ w, Room (fl.big w) (Nest.init : Nest α) F ∧ F.size < 2 ^ (fl.big w).width - 1 := by
  refine ⟨F.size + textOf fl.ik F + 1, ⟨?_, ?_, fun _ => rfl⟩, ?_⟩
  · show 0 + F.size ≤ 2 ^ (fl.width + (F.size + textOf fl.ik F + 1)) - 1
    have h1 : F.size + textOf fl.ik F + 1 < 2 ^ (F.size + textOf fl.ik F + 1) := Nat.lt_two_pow_self
    have h2 : 2 ^ (F.size + textOf fl.ik F + 1) ≤ 2 ^ (fl.width + (F.size + textOf fl.ik F + 1)) :=
      Nat.pow_le_pow_right (by omega) (Nat.le_add_left _ _)
    omega
  · rw [big_text]
    show Lit.Addressable _ (0 + textOf fl.ik F)
    unfold Flavor.big
    simp only
    cases hk : fl.ik with
    | empty => trivial
    | bits v =>
      have h1 : F.size + textOf (.bits v) F + 1 < 2 ^ (F.size + textOf (.bits v) F + 1) :=
        Nat.lt_two_pow_self
      have h2 : 2 ^ (F.size + textOf (.bits v) F + 1) ≤ 2 ^ (v + (F.size + textOf (.bits v) F + 1)) :=
        Nat.pow_le_pow_right (by omega) (Nat.le_add_left _ _)
      simp only [Lit.Addressable]
      omega
  · show F.size < 2 ^ (fl.width + (F.size + textOf fl.ik F + 1)) - 1
    have h1 : F.size + textOf fl.ik F + 1 < 2 ^ (F.size + textOf fl.ik F + 1) := Nat.lt_two_pow_self
    have h2 : 2 ^ (F.size + textOf fl.ik F + 1) ≤ 2 ^ (fl.width + (F.size + textOf fl.ik F + 1)) :=
      Nat.pow_le_pow_right (by omega) (Nat.le_add_left _ _)
    omega

/-- If the machine does what it should given room, it does so or overflows. -/
theorem machine_exact {c : ChangeSet} {F G : Forest (Lab α)}
    (h : ∀ w, Room (fl.big w) (Nest.init : Nest α) G → c.machine (fl.big w) F =
      .ok (Nest.init.copied fl.ik G)) :
    (Room fl (Nest.init : Nest α) G → c.machine fl F = .ok (Nest.init.copied fl.ik G)) ∧
    (¬ Room fl (Nest.init : Nest α) G → c.machine fl F = .error .overflow) := by
  obtain ⟨w, hw, _⟩ := big_room fl G
  have hbig := h w hw
  refine ⟨fun hr => ?_, fun hr => ?_⟩
  · have h0 : fl.big 0 = fl := by
      unfold Flavor.big
      cases fl with
      | mk ik width keep => cases ik <;> rfl
    have := h 0
    rw [h0] at this
    exact this hr
  · cases hm : c.machine fl F with
    | error e => rw [machine_total c F hm]
    | ok n =>
      have h1 : c.machine (fl.big w) F = .ok n := big_run _ _ hm
      rw [hbig] at h1
      simp only [Except.ok.injEq] at h1
      have hi := machine_inv hm
      rw [← h1] at hi
      exact absurd ⟨hi.cap, hi.addr, fun _ => rfl⟩ hr

/-- No change applies. -/
theorem machine_none {c : ChangeSet} {F : Forest (Lab α)} (hm : ∀ j ∈ c.changes, F.size ≤ j) :
    (Room fl (Nest.init : Nest α) F → c.machine fl F = .ok (Nest.init.copied fl.ik F)) ∧
    (¬ Room fl (Nest.init : Nest α) F → c.machine fl F = .error .overflow) := by
  apply machine_exact
  intro w hr
  apply machine_of_steps
  have := copy_steps (S := c.changes) F [] Nest.init .nil hr (fun j hj => Or.inr (by
    have := hm j hj
    simpa [Nest.init] using this))
  rw [append_nil, big_copied] at this
  exact this

/-- One change applies. -/
theorem machine_one {c : ChangeSet} {F : Forest (Lab α)} {i : Nat} (hc : ∀ j, j ∈ c.changes ↔ j = i)
    (hi : i < F.size) (hcap : F.size ≤ 2 ^ fl.width - 1) :
    (Room fl (Nest.init : Nest α) (F.hitAt i) →
      c.machine fl F = .ok (Nest.init.copied fl.ik (F.hitAt i))) ∧
    (¬ Room fl (Nest.init : Nest α) (F.hitAt i) → c.machine fl F = .error .overflow) := by
  apply machine_exact
  intro w hr
  apply machine_of_steps
  have hS : Only c.changes ((Nest.init : Nest α).count + i) := by
    intro j; rw [hc]; simp [Nest.init]
  by_cases hl : i = F.lastPos
  · have hF : F ≠ .nil := by rintro rfl; simp [Forest.size] at hi
    obtain ⟨z, K, e1, e2⟩ := reach_last F hF
    rw [hl, hitAt_lastPos F hF] at hr ⊢
    have s1 := copy_steps (S := c.changes) F.dropLast [] Nest.init (single z K) hr
      (hS.misses (by rw [← e2, ← hl]; omega))
    rw [← e1, big_copied] at s1
    refine s1.trans ?_
    apply Steps.one
    unfold EM.step
    rw [if_neg, if_pos]
    · rw [hS, copied_count, ← e2, hl]
    · rw [not_full_iff, copied_count, ← e2, ← hl]
      have : 2 ^ fl.width ≤ 2 ^ (fl.big w).width :=
        Nat.pow_le_pow_right (by omega) (Nat.le_add_right _ _)
      simp only [Nest.init]; omega
  · have := hit_steps (S := c.changes) F i [] Nest.init hi hl hr hS
    rw [big_copied] at this
    exact this

end Syntree
