import Verif.Proof.LooseStep

/-! The checkpoint cells and the places of the specification `Loose`. -/

namespace Syntree

variable {α : Type}

open Forest

/-- The levels on which nodes can be added now or later, the current one first. -/
def levels (st : Stack α) : List (Option Nat) := st.map (fun p => some p.1.id) ++ [none]

/-- The nodes below a level. -/
def under : Forest (Lab α) → Stack α → Option Nat → List Nat
  | cur, [], _ => cur.ids
  | cur, (x, left) :: st, lvl =>
    if lvl = some x.id then cur.ids else under (left ++ single x cur) st lvl

theorem under_mono {cur cur' : Forest (Lab α)} {st : Stack α} {lvl : Option Nat}
    (h : ∀ i ∈ cur.ids, i ∈ cur'.ids) {i : Nat} (hi : i ∈ under cur st lvl) :
    i ∈ under cur' st lvl := by
  induction st generalizing cur cur' with
  | nil => exact h i hi
  | cons p st ih =>
    obtain ⟨x, left⟩ := p
    rw [under] at hi ⊢
    split at hi
    · rename_i hl; rw [if_pos hl]; exact h i hi
    · rename_i hl
      rw [if_neg hl]
      refine ih ?_ hi
      intro j hj
      simp only [ids_append, ids_cons, ids_nil, List.append_nil, List.mem_append,
        List.mem_cons] at hj ⊢
      rcases hj with h1 | h1 | h1
      · exact Or.inl h1
      · exact Or.inr (Or.inl h1)
      · exact Or.inr (Or.inr (h j h1))

theorem under_self {cur : Forest (Lab α)} {st : Stack α} {lvl : Option Nat} {i : Nat}
    (hi : i ∈ cur.ids) : i ∈ under cur st lvl := by
  induction st generalizing cur with
  | nil => exact hi
  | cons p st ih =>
    obtain ⟨x, left⟩ := p
    rw [under]
    split
    · exact hi
    · exact ih (by simp [ids_append, hi])

theorem under_endParent {cur : Forest (Lab α)} {st : Stack α} {lvl : Option Nat} {stop i : Nat} :
    i ∈ under cur (Nest.endParent stop st) lvl ↔ i ∈ under cur st lvl := by
  cases st with
  | nil => exact Iff.rfl
  | cons p st =>
    obtain ⟨x, left⟩ := p
    rw [Nest.endParent, under, under]
    split
    · exact Iff.rfl
    · constructor
      · exact under_mono (by simp [ids_append])
      · exact under_mono (by simp [ids_append])

theorem under_growParent {cur : Forest (Lab α)} {st : Stack α} {lvl : Option Nat} {sp : Span}
    {i : Nat} : i ∈ under cur (Nest.growParent sp st) lvl ↔ i ∈ under cur st lvl := by
  cases st with
  | nil => exact Iff.rfl
  | cons p st =>
    obtain ⟨x, left⟩ := p
    rw [Nest.growParent, under, under]
    split
    · exact Iff.rfl
    · constructor
      · exact under_mono (by simp [ids_append])
      · exact under_mono (by simp [ids_append])

theorem levels_endParent (stop : Nat) (st : Stack α) :
    levels (Nest.endParent stop st) = levels st := by
  cases st with
  | nil => rfl
  | cons p st => obtain ⟨x, l⟩ := p; rfl

theorem levels_growParent (sp : Span) (st : Stack α) :
    levels (Nest.growParent sp st) = levels st := by
  cases st with
  | nil => rfl
  | cons p st => obtain ⟨x, l⟩ := p; rfl

theorem levels_mem {st : Stack α} {i : Nat} (h : some i ∈ levels st) : i ∈ stackIds st := by
  induction st with
  | nil => simp [levels] at h
  | cons p st ih =>
    obtain ⟨x, left⟩ := p
    have h' : some i = some x.id ∨ some i ∈ levels st := by
      rw [levels, List.map_cons, List.cons_append, List.mem_cons] at h; exact h
    rcases h' with h | h
    · simp at h; simp [stackIds, h]
    · simp [stackIds, ih h]

theorem frame_not_outer {st : Stack α} (nd : (stackIds st).Nodup) : parOf st ∉ (levels st).tail := by
  cases st with
  | nil => simp [levels]
  | cons p st =>
    obtain ⟨x, left⟩ := p
    show some x.id ∉ levels st
    intro h
    simp only [stackIds, List.nodup_cons, List.mem_append, not_or] at nd
    exact nd.1.2 (levels_mem h)

theorem frame_mem_levels (st : Stack α) : parOf st ∈ levels st := by
  cases st with
  | nil => simp [levels]
  | cons p st => simp [levels]

structure PInv (cells : Cells) (handles : List Nat) (ck : Option Nat) (n : Nest α)
    (places : List Place) : Prop where
  len : handles.length = places.length
  cell : ∀ (k c : Nat) (p : Place), handles[k]? = some c → places[k]? = some p →
    cells[c]? = some ⟨p.node, p.level⟩
  share : ∀ (k k' c c' : Nat) (p p' : Place), handles[k]? = some c → handles[k']? = some c' →
    places[k]? = some p → places[k']? = some p' → (c = c' ↔ p.born = p'.born)
  ckOk : ∀ c : Nat, ck = some c → ∃ k : Nat, handles[k]? = some c
  fresh : ∀ p ∈ places, (p.node = p.born.1 ∧ p.level = p.born.2) ∨ p.node < n.count
  bound : ∀ p ∈ places, p.born.1 ≤ p.node ∧ p.node ≤ n.count ∧
    (∀ f, p.level = some f → f < n.count) ∧ (∀ f, p.born.2 = some f → f < n.count)
  cached : ∀ (k c : Nat) (p : Place), handles[k]? = some c → places[k]? = some p →
    p.born = (n.count, n.frame) → ck = some c
  outer : ∀ p ∈ places, p.born.1 = n.count → p.born.2 ∉ (levels n.stack).tail
  where_ : ∀ p ∈ places, p.node < n.count → p.level ∈ levels n.stack →
    p.node ∈ under n.cur n.stack p.level

variable {cells : Cells} {handles : List Nat} {ck : Option Nat} {n n' : Nest α} {ps : List Place}

theorem PInv.init : PInv [] [] none (Nest.init : Nest α) [] := by
  refine ⟨rfl, ?_, ?_, ?_, ?_, ?_, ?_, ?_, ?_⟩ <;> simp

/-- Nothing but the cursor or spans change. -/
theorem PInv.same (h : PInv cells handles ck n ps) (h1 : n'.cur = n.cur) (h2 : n'.stack = n.stack)
    (h3 : n'.count = n.count) : PInv cells handles ck n' ps := by
  obtain ⟨a1, a2, a3, a4, a5, a6, a7, a8, a9⟩ := h
  have hf : n'.frame = n.frame := by simp only [Nest.frame, h2]
  refine ⟨a1, a2, a3, a4, ?_, ?_, ?_, ?_, ?_⟩ <;> rw [h3]
  · exact a5
  · exact a6
  · rw [hf]; exact a7
  · rw [h2]; exact a8
  · rw [h1, h2]; exact a9

/-- One node more. -/
theorem PInv.grow (h : PInv cells handles ck n ps) (hc : n'.count = n.count + 1)
    (hl : ∀ lvl, lvl ∈ levels n'.stack → lvl = some n.count ∨ lvl ∈ levels n.stack)
    (hu : ∀ lvl i, lvl ≠ some n.count → i ∈ under n.cur n.stack lvl →
      i ∈ under n'.cur n'.stack lvl)
    (hn : ∀ lvl, lvl ≠ some n.count → n.count ∈ under n'.cur n'.stack lvl) :
    PInv cells handles ck n' ps := by
  obtain ⟨a1, a2, a3, a4, a5, a6, a7, a8, a9⟩ := h
  refine ⟨a1, a2, a3, a4, ?_, ?_, ?_, ?_, ?_⟩
  · intro p hp; have := (a6 p hp).2.1; exact Or.inr (by omega)
  · intro p hp
    obtain ⟨b1, b2, b3, b4⟩ := a6 p hp
    refine ⟨b1, by omega, ?_, ?_⟩
    · intro f hf; have := b3 f hf; omega
    · intro f hf; have := b4 f hf; omega
  · intro k c p hk hp hb
    have := a6 p (List.mem_of_getElem? hp)
    have : p.born.1 = n'.count := by rw [hb]
    omega
  · intro p hp hb
    have := a6 p hp
    omega
  · intro p hp hlt hlv
    have hb := a6 p hp
    have hne : p.level ≠ some n.count := fun he => Nat.lt_irrefl _ (hb.2.2.1 _ he)
    rcases hl _ hlv with h1 | h1
    · exact absurd h1 hne
    · by_cases hlt2 : p.node < n.count
      · exact hu _ _ hne (a9 p hp hlt2 h1)
      · have : p.node = n.count := by omega
        rw [this]; exact hn _ hne

theorem PInv.addLeaf (h : PInv cells handles ck n ps) (d : α) (sp : Span) :
    PInv cells handles ck (n.addLeaf d sp) ps := by
  refine h.grow rfl ?_ ?_ ?_
  · intro lvl hl
    right; rw [← levels_endParent]; exact hl
  · intro lvl i _ hi
    show i ∈ under _ (Nest.endParent _ _) lvl
    rw [under_endParent]
    exact under_mono (by intro j hj; simp [Nest.addLeaf, ids_append, hj]) hi
  · intro lvl _
    exact under_self (by simp [Nest.addLeaf, ids_append])

theorem PInv.addOpen (h : PInv cells handles ck n ps) (d : α) (sp : Span) :
    PInv cells handles ck (n.addOpen d sp) ps := by
  refine h.grow rfl ?_ ?_ ?_
  · intro lvl hl
    have hl' : lvl = some n.count ∨ lvl ∈ levels (Nest.endParent sp.stop n.stack) := by
      simp only [Nest.addOpen, levels, List.map_cons, List.cons_append, List.mem_cons] at hl
      exact hl
    rw [levels_endParent] at hl'; exact hl'
  · intro lvl i hne hi
    show i ∈ under .nil (_ :: Nest.endParent _ _) lvl
    rw [under, if_neg hne, under_endParent]
    exact under_mono (by intro j hj; simp [ids_append, hj]) hi
  · intro lvl hne
    show n.count ∈ under .nil (_ :: Nest.endParent _ _) lvl
    rw [under, if_neg hne, under_endParent]
    exact under_self (by simp [ids_append])

theorem PInv.close (h : PInv cells handles ck n ps) {x : Lab α} {left : Forest (Lab α)} {st : Stack α}
    (hst : n.stack = (x, left) :: st) (nd : (stackIds n.stack).Nodup) {c : Nat} :
    PInv cells handles ck { n with
      cur := left ++ Forest.single x n.cur
      stack := Nest.growParent x.span st
      cursor := c } ps := by
  obtain ⟨a1, a2, a3, a4, a5, a6, a7, a8, a9⟩ := h
  have htail : (levels n.stack).tail = levels st := by rw [hst]; rfl
  refine ⟨a1, a2, a3, a4, a5, a6, ?_, ?_, ?_⟩
  · intro k c p hk hp hb
    exfalso
    have hb1 : p.born.1 = n.count := by rw [hb]
    refine a8 p (List.mem_of_getElem? hp) hb1 ?_
    rw [htail, hb]
    show parOf (Nest.growParent x.span st) ∈ _
    rw [parOf_growParent]; exact frame_mem_levels st
  · intro p hp hb hm
    refine a8 p hp hb ?_
    rw [htail]
    rw [levels_growParent] at hm
    exact List.mem_of_mem_tail hm
  · intro p hp hlt hlv
    rw [levels_growParent] at hlv
    rw [under_growParent]
    have hne : p.level ≠ some x.id := by
      intro he
      rw [he] at hlv
      rw [hst] at nd
      simp only [stackIds, List.nodup_cons, List.mem_append, not_or] at nd
      exact nd.1.2 (levels_mem hlv)
    have hlv' : p.level ∈ levels n.stack := by
      rw [hst]
      show _ ∈ some x.id :: levels st
      exact List.mem_cons_of_mem _ hlv
    have := a9 p hp hlt hlv'
    rw [hst, under, if_neg hne] at this
    exact this

/-- A checkpoint in the current place is taken for the first time. -/
theorem PInv.taken (h : PInv cells handles ck n ps) (nd : (stackIds n.stack).Nodup)
    (hf : ∀ f, n.frame = some f → f < n.count)
    (hno : ∀ p ∈ ps, p.born ≠ (n.count, n.frame)) :
    PInv (cells ++ [⟨n.count, n.frame⟩]) (handles ++ [cells.length]) (some cells.length) n
      (ps ++ [⟨(n.count, n.frame), n.count, n.frame⟩]) := by
  obtain ⟨a1, a2, a3, a4, a5, a6, a7, a8, a9⟩ := h
  have old : ∀ {k c : Nat} {p : Place}, (handles ++ [cells.length])[k]? = some c →
      (ps ++ [⟨(n.count, n.frame), n.count, n.frame⟩])[k]? = some p →
      (handles[k]? = some c ∧ ps[k]? = some p ∧ c < cells.length) ∨
      (c = cells.length ∧ p = ⟨(n.count, n.frame), n.count, n.frame⟩) := by
    intro k c p hk hp
    rcases Nat.lt_trichotomy k handles.length with h1 | h1 | h1
    · rw [List.getElem?_append_left h1] at hk
      rw [List.getElem?_append_left (by omega)] at hp
      have := a2 k c p hk hp
      exact Or.inl ⟨hk, hp, (List.getElem?_eq_some_iff.1 this).1⟩
    · right
      subst h1
      rw [List.getElem?_append_right (Nat.le_refl _)] at hk
      rw [a1, List.getElem?_append_right (Nat.le_refl _)] at hp
      simp at hk hp
      exact ⟨hk.symm, hp.symm⟩
    · rw [List.getElem?_eq_none_iff.2 (by simp; omega)] at hk
      simp at hk
  have mem : ∀ {p : Place}, p ∈ ps ++ [⟨(n.count, n.frame), n.count, n.frame⟩] →
      p ∈ ps ∨ p = ⟨(n.count, n.frame), n.count, n.frame⟩ := by
    intro p hp; simpa using hp
  refine ⟨by simp [a1], ?_, ?_, ?_, ?_, ?_, ?_, ?_, ?_⟩
  · intro k c p hk hp
    rcases old hk hp with ⟨h1, h2, h3⟩ | ⟨rfl, rfl⟩
    · rw [List.getElem?_append_left h3]; exact a2 k c p h1 h2
    · simp
  · intro k k' c c' p p' hk hk' hp hp'
    rcases old hk hp with ⟨h1, h2, h3⟩ | ⟨rfl, rfl⟩ <;>
      rcases old hk' hp' with ⟨h1', h2', h3'⟩ | ⟨rfl, rfl⟩
    · exact a3 k k' c c' p p' h1 h1' h2 h2'
    · constructor
      · intro he; omega
      · intro he; exact absurd he (hno p (List.mem_of_getElem? h2))
    · constructor
      · intro he; omega
      · intro he; exact absurd he.symm (hno p' (List.mem_of_getElem? h2'))
    · simp
  · intro c hc
    simp only [Option.some.injEq] at hc
    exact ⟨handles.length, by rw [List.getElem?_append_right (Nat.le_refl _)]; simp [hc]⟩
  · intro p hp
    rcases mem hp with h | rfl
    · exact a5 p h
    · exact Or.inl ⟨rfl, rfl⟩
  · intro p hp
    rcases mem hp with h | rfl
    · exact a6 p h
    · exact ⟨Nat.le_refl _, Nat.le_refl _, hf, hf⟩
  · intro k c p hk hp hb
    rcases old hk hp with ⟨h1, h2, h3⟩ | ⟨rfl, rfl⟩
    · exact absurd hb (hno p (List.mem_of_getElem? h2))
    · rfl
  · intro p hp hb
    rcases mem hp with h | rfl
    · exact a8 p h hb
    · exact frame_not_outer nd
  · intro p hp hlt hlv
    rcases mem hp with h | rfl
    · exact a9 p h hlt hlv
    · simp at hlt

/-- The cached checkpoint is handed out again. -/
theorem PInv.again (h : PInv cells handles ck n ps) {c k0 : Nat} {p0 : Place} (hck : ck = some c)
    (hk0 : handles[k0]? = some c) (hp0 : ps[k0]? = some p0)
    (he : p0 = ⟨(n.count, n.frame), n.count, n.frame⟩) :
    PInv cells (handles ++ [c]) ck n (ps ++ [⟨(n.count, n.frame), n.count, n.frame⟩]) := by
  obtain ⟨a1, a2, a3, a4, a5, a6, a7, a8, a9⟩ := h
  subst he
  have old : ∀ {k c' : Nat} {p : Place}, (handles ++ [c])[k]? = some c' →
      (ps ++ [⟨(n.count, n.frame), n.count, n.frame⟩])[k]? = some p →
      ∃ k' : Nat, handles[k']? = some c' ∧ ps[k']? = some p := by
    intro k c' p hk hp
    rcases Nat.lt_trichotomy k handles.length with h1 | h1 | h1
    · rw [List.getElem?_append_left h1] at hk
      rw [List.getElem?_append_left (by omega)] at hp
      exact ⟨k, hk, hp⟩
    · subst h1
      rw [List.getElem?_append_right (Nat.le_refl _)] at hk
      rw [a1, List.getElem?_append_right (Nat.le_refl _)] at hp
      simp at hk hp
      exact ⟨k0, hk ▸ hk0, hp ▸ hp0⟩
    · rw [List.getElem?_eq_none_iff.2 (by simp; omega)] at hk
      simp at hk
  have mem : ∀ {p : Place}, p ∈ ps ++ [⟨(n.count, n.frame), n.count, n.frame⟩] → p ∈ ps := by
    intro p hp
    rw [List.mem_append, List.mem_singleton] at hp
    rcases hp with hp | rfl
    · exact hp
    · exact List.mem_of_getElem? hp0
  refine ⟨by simp [a1], ?_, ?_, ?_, fun p hp => a5 p (mem hp), fun p hp => a6 p (mem hp), ?_,
    fun p hp => a8 p (mem hp), fun p hp => a9 p (mem hp)⟩
  · intro k c' p hk hp
    obtain ⟨k', h1, h2⟩ := old hk hp
    exact a2 k' c' p h1 h2
  · intro k k' c1 c2 p p' hk hk' hp hp'
    obtain ⟨j, h1, h2⟩ := old hk hp
    obtain ⟨j', h1', h2'⟩ := old hk' hp'
    exact a3 j j' c1 c2 p p' h1 h1' h2 h2'
  · intro c' hc'
    obtain ⟨k, hk⟩ := a4 c' hc'
    refine ⟨k, ?_⟩
    rw [List.getElem?_append_left (List.getElem?_eq_some_iff.1 hk).1]; exact hk
  · intro k c' p hk hp hb
    obtain ⟨k', h1, h2⟩ := old hk hp
    exact a7 k' c' p h1 h2 hb

/-- A checkpoint is used to wrap something. -/
theorem PInv.wrapped (h : PInv cells handles ck n ps) {c k : Nat} {p : Place}
    (hk : handles[k]? = some c) (hp : ps[k]? = some p) {F : Forest (Lab α)} {lvl : Option Nat}
    (hF : ∀ i, i ∈ n.cur.ids ∨ i = n.count → i ∈ F.ids) (hlvl : ∀ f, lvl = some f → f < n.count) :
    PInv (cells.set c ⟨n.count, lvl⟩) handles ck { n with cur := F, count := n.count + 1 }
      (ps.map fun q => if q.born = p.born then { q with node := n.count, level := lvl } else q) := by
  obtain ⟨a1, a2, a3, a4, a5, a6, a7, a8, a9⟩ := h
  have hc : c < cells.length := (List.getElem?_eq_some_iff.1 (a2 k c p hk hp)).1
  have get : ∀ {k' : Nat} {q : Place}, (ps.map fun q => if q.born = p.born then
      { q with node := n.count, level := lvl } else q)[k']? = some q →
      ∃ q0, ps[k']? = some q0 ∧ q.born = q0.born ∧
        (q0.born = p.born ∧ q = { q0 with node := n.count, level := lvl } ∨
          q0.born ≠ p.born ∧ q = q0) := by
    intro k' q hq
    rw [List.getElem?_map, Option.map_eq_some_iff] at hq
    obtain ⟨q0, h1, h2⟩ := hq
    refine ⟨q0, h1, ?_⟩
    by_cases hb : q0.born = p.born
    · rw [if_pos hb] at h2; subst h2; exact ⟨rfl, Or.inl ⟨hb, rfl⟩⟩
    · rw [if_neg hb] at h2; subst h2; exact ⟨rfl, Or.inr ⟨hb, rfl⟩⟩
  have getm : ∀ {q : Place}, q ∈ (ps.map fun q => if q.born = p.born then
      { q with node := n.count, level := lvl } else q) →
      ∃ q0 ∈ ps, q.born = q0.born ∧
        (q0.born = p.born ∧ q = { q0 with node := n.count, level := lvl } ∨
          q0.born ≠ p.born ∧ q = q0) := by
    intro q hq
    obtain ⟨k', hk'⟩ := List.getElem?_of_mem hq
    obtain ⟨q0, h1, h2⟩ := get hk'
    exact ⟨q0, List.mem_of_getElem? h1, h2⟩
  refine ⟨by simp [a1], ?_, ?_, a4, ?_, ?_, ?_, ?_, ?_⟩
  · intro k' c' q hk' hq
    obtain ⟨q0, h1, h2, h3⟩ := get hq
    have hsh := a3 k' k c' c q0 p hk' hk h1 hp
    rcases h3 with ⟨h4, rfl⟩ | ⟨h4, rfl⟩
    · have := hsh.2 h4
      subst this
      rw [List.getElem?_set_self hc]
    · have hne : c ≠ c' := fun he => h4 (hsh.1 he.symm)
      rw [List.getElem?_set_ne hne]
      exact a2 k' c' _ hk' h1
  · intro k1 k2 c1 c2 q1 q2 hk1 hk2 hq1 hq2
    obtain ⟨q1', h1, h2, _⟩ := get hq1
    obtain ⟨q2', h1', h2', _⟩ := get hq2
    rw [h2, h2']
    exact a3 k1 k2 c1 c2 q1' q2' hk1 hk2 h1 h1'
  · intro q hq
    obtain ⟨q0, h1, h2, h3⟩ := getm hq
    right
    show q.node < n.count + 1
    rcases h3 with ⟨_, rfl⟩ | ⟨_, rfl⟩
    · exact Nat.lt_succ_self _
    · have := (a6 _ h1).2.1; omega
  · intro q hq
    obtain ⟨q0, h1, h2, h3⟩ := getm hq
    obtain ⟨b1, b2, b3, b4⟩ := a6 _ h1
    rcases h3 with ⟨_, rfl⟩ | ⟨_, rfl⟩
    · refine ⟨Nat.le_trans b1 b2, Nat.le_succ _, ?_, ?_⟩
      · intro f hf; have := hlvl f hf; show f < n.count + 1; omega
      · intro f hf; have := b4 f hf; show f < n.count + 1; omega
    · refine ⟨b1, Nat.le_succ_of_le b2, ?_, ?_⟩
      · intro f hf; have := b3 f hf; show f < n.count + 1; omega
      · intro f hf; have := b4 f hf; show f < n.count + 1; omega
  · intro k' c' q hk' hq hb
    exfalso
    obtain ⟨q0, h1, h2, _⟩ := get hq
    obtain ⟨b1, b2, b3, b4⟩ := a6 _ (List.mem_of_getElem? h1)
    have : q.born.1 = n.count + 1 := by rw [hb]
    rw [h2] at this; omega
  · intro q hq hb
    exfalso
    obtain ⟨q0, h1, h2, _⟩ := getm hq
    obtain ⟨b1, b2, b3, b4⟩ := a6 _ h1
    have : q.born.1 = n.count + 1 := hb
    rw [h2] at this; omega
  · intro q hq hlt hlv
    obtain ⟨q0, h1, h2, h3⟩ := getm hq
    rcases h3 with ⟨_, rfl⟩ | ⟨_, rfl⟩
    · exact under_self (hF _ (Or.inr rfl))
    · by_cases hlt2 : q.node < n.count
      · exact under_mono (fun i hi => hF i (Or.inl hi)) (a9 q h1 hlt2 hlv)
      · have hlt' : q.node < n.count + 1 := hlt
        have : q.node = n.count := by omega
        exact under_self (hF _ (Or.inr this))

end Syntree
