import Verif.Proof.Wrap

/-! Checkpoint cells against marks. -/

namespace Syntree

variable {α : Type}

open Forest

/-- The ids at the positions of the children list of frame `f`, if `f` is being built. `ids` is the
list for the innermost frame. The last entry is the node that follows the last position. -/
def slots (ids : List Nat) : Stack α → Option Nat → Option (List Nat)
  | [], f => if f = none then some ids else none
  | (x, left) :: st, f => if f = some x.id then some ids else slots (left.topIds ++ [x.id]) st f

theorem slots_endParent (ids : List Nat) (stop : Nat) (st : Stack α) (f : Option Nat) :
    slots ids (Nest.endParent stop st) f = slots ids st f := by
  cases st with
  | nil => rfl
  | cons p st => rfl

theorem slots_growParent (ids : List Nat) (sp : Span) (st : Stack α) (f : Option Nat) :
    slots ids (Nest.growParent sp st) f = slots ids st f := by
  cases st with
  | nil => rfl
  | cons p st => rfl

theorem slots_self (ids : List Nat) (st : Stack α) : slots ids st (parOf st) = some ids := by
  cases st with
  | nil => simp [slots]
  | cons p st => simp [slots, parOf]

theorem slots_ne (ids ids' : List Nat) (st : Stack α) (f : Option Nat) (h : f ≠ parOf st) :
    slots ids st f = slots ids' st f := by
  cases st with
  | nil => simp [parOf] at h; simp [slots, h]
  | cons p st =>
    have : f ≠ some p.1.id := by simpa [parOf] using h
    simp [slots, this]

theorem slots_mem (ids : List Nat) (st : Stack α) (f : Nat) (sl : List Nat)
    (h : slots ids st (some f) = some sl) : f ∈ stackIds st := by
  induction st generalizing ids with
  | nil => simp [slots] at h
  | cons p st ih =>
    obtain ⟨x, left⟩ := p
    simp only [slots] at h
    by_cases hf : some f = some x.id
    · simp only [Option.some.injEq] at hf; simp [stackIds, hf]
    · rw [if_neg hf] at h
      simp [stackIds, ih _ h]

/-- How the cells of the handed out checkpoints correspond to the marks. -/
structure HInv (cells : Cells) (handles : List Nat) (ckpt : Option Nat) (n : Nest α) : Prop where
  len : handles.length = n.marks.length
  cell : ∀ (k c : Nat) (m : Mark), handles[k]? = some c → n.marks[k]? = some m →
    ∃ cell : Cell, cells[c]? = some cell ∧ cell.parent = m.frame ∧
      (m.live = true → ∀ sl, slots (n.cur.topIds ++ [n.count]) n.stack m.frame = some sl →
        sl[m.pos]? = some cell.node) ∧
      (m.live = false → cell.node < n.count) ∧
      (∀ f, m.frame = some f → f < n.count)
  share : ∀ (k k' c : Nat) (m m' : Mark), handles[k]? = some c → handles[k']? = some c →
    n.marks[k]? = some m → n.marks[k']? = some m' → m = m'
  uniq : ∀ (k k' c c' : Nat) (m : Mark), m.live = true → handles[k]? = some c → handles[k']? = some c' →
    n.marks[k]? = some m → n.marks[k']? = some m → c = c'
  cached : ∀ (k c : Nat) (m : Mark), handles[k]? = some c → n.marks[k]? = some m → m.live = true →
    m.frame = n.frame → m.pos = n.cur.topIds.length → ckpt = some c
  ckpt : ∀ c : Nat, ckpt = some c → ∃ k : Nat, handles[k]? = some c

theorem HInv.init : HInv [] [] none (Nest.init : Nest α) := by
  refine ⟨rfl, ?_, ?_, ?_, ?_, ?_⟩ <;> simp

variable {cells : Cells} {handles : List Nat} {ckpt : Option Nat} {n n' : Nest α}

theorem topIds_length (F : Forest (Lab α)) : F.topIds.length = F.tops.length := by
  simp [Forest.topIds]

/-- Steps that only make the lists of positions longer. -/
theorem HInv.extend (h : HInv cells handles ckpt n) (hm : n'.marks = n.marks)
    (hc : n.count ≤ n'.count)
    (hs : ∀ m ∈ n.marks, m.live = true → (∀ f, m.frame = some f → f < n.count) →
      ∀ sl', slots (n'.cur.topIds ++ [n'.count]) n'.stack m.frame = some sl' →
      ∃ sl, slots (n.cur.topIds ++ [n.count]) n.stack m.frame = some sl ∧
        (∀ p v : Nat, sl[p]? = some v → sl'[p]? = some v) ∧
        (m.frame = n'.frame → sl.length ≤ n'.cur.topIds.length)) :
    HInv cells handles ckpt n' := by
  obtain ⟨h1, h2, h3, h4, h5, h6⟩ := h
  refine ⟨by rw [hm]; exact h1, ?_, by rw [hm]; exact h3, by rw [hm]; exact h4, ?_, h6⟩
  · intro k c m hk hkm
    rw [hm] at hkm
    obtain ⟨cell, a1, a2, a3, a4, a5⟩ := h2 k c m hk hkm
    refine ⟨cell, a1, a2, ?_, fun hd => Nat.lt_of_lt_of_le (a4 hd) hc,
      fun f hf => Nat.lt_of_lt_of_le (a5 f hf) hc⟩
    intro hl sl' hsl'
    obtain ⟨sl, b1, b2, _⟩ := hs m (List.mem_of_getElem? hkm) hl a5 sl' hsl'
    exact b2 _ _ (a3 hl sl b1)
  · intro k c m hk hkm hl hf hp
    rw [hm] at hkm
    obtain ⟨cell, a1, a2, a3, a4, a5⟩ := h2 k c m hk hkm
    have hself := slots_self (n'.cur.topIds ++ [n'.count]) n'.stack
    have hf' : m.frame = parOf n'.stack := hf
    obtain ⟨sl, b1, b2, b3⟩ := hs m (List.mem_of_getElem? hkm) hl a5 _ (hf' ▸ hself)
    have := a3 hl sl b1
    have hlt : m.pos < sl.length := (List.getElem?_eq_some_iff.1 this).1
    have := b3 hf
    omega

/-- Nothing about positions changed. -/
theorem HInv.same (h : HInv cells handles ckpt n) (hm : n'.marks = n.marks)
    (hc : n'.count = n.count) (hcur : n'.cur = n.cur) (hst : n'.stack = n.stack) :
    HInv cells handles ckpt n' := by
  obtain ⟨h1, h2, h3, h4, h5, h6⟩ := h
  refine ⟨by rw [hm]; exact h1, ?_, by rw [hm]; exact h3, by rw [hm]; exact h4, ?_, h6⟩
  · rw [hm, hc, hcur, hst]; exact h2
  · rw [hm, hcur]; unfold Nest.frame; rw [hst]; exact h5

/-- A leaf is added. -/
theorem HInv.addLeaf (h : HInv cells handles ckpt n) (d : α) (sp : Span) :
    HInv cells handles ckpt (n.addLeaf d sp) := by
  refine h.extend rfl (Nat.le_succ _) ?_
  intro m _ _ _ sl' hsl'
  simp only [Nest.addLeaf, slots_endParent, topIds_append, topIds_cons, topIds_nil] at hsl' ⊢
  by_cases hf : m.frame = parOf n.stack
  · rw [hf, slots_self] at hsl' ⊢
    simp only [Option.some.injEq] at hsl'
    refine ⟨_, rfl, ?_, ?_⟩
    · intro p v hp
      rw [← hsl']
      rw [List.getElem?_append_left (List.getElem?_eq_some_iff.1 hp).1]; exact hp
    · intro _; simp
  · refine ⟨sl', ?_, fun _ _ h => h, ?_⟩
    · rw [← hsl']; exact slots_ne _ _ _ _ hf
    · intro hf'
      exact absurd (hf'.trans (parOf_endParent sp.stop n.stack)) hf

/-- A node is opened. -/
theorem HInv.addOpen (h : HInv cells handles ckpt n) (d : α) (sp : Span) :
    HInv cells handles ckpt (n.addOpen d sp) := by
  refine h.extend rfl (Nat.le_succ _) ?_
  intro m _ _ hfl sl' hsl'
  have hne : m.frame ≠ some n.count := by
    intro he; have := hfl _ he; omega
  simp only [Nest.addOpen, slots, slots_endParent] at hsl' ⊢
  rw [if_neg hne] at hsl'
  refine ⟨sl', hsl', fun _ _ h => h, ?_⟩
  intro hf'; exact absurd hf' hne

/-- A node is closed. -/
theorem HInv.close {x : Lab α} {left : Forest (Lab α)} {st : Stack α} {c : Nat}
    (h : HInv cells handles ckpt n) (hst : n.stack = (x, left) :: st)
    (nd : (stackIds n.stack).Nodup) :
    HInv cells handles ckpt { n with
      cur := left ++ single x n.cur, stack := Nest.growParent x.span st, cursor := c } := by
  rw [hst] at nd
  simp only [stackIds, List.nodup_cons, List.mem_append, not_or] at nd
  refine h.extend rfl (Nat.le_refl _) ?_
  intro m _ _ hfl sl' hsl'
  have hne : m.frame ≠ some x.id := by
    intro he
    rw [he, slots_growParent] at hsl'
    exact nd.1.2 (slots_mem _ _ _ _ hsl')
  simp only [slots_growParent, topIds_append, topIds_cons, topIds_nil] at hsl' ⊢
  rw [hst, slots, if_neg hne]
  by_cases hf : m.frame = parOf st
  · rw [hf, slots_self] at hsl' ⊢
    simp only [Option.some.injEq] at hsl'
    refine ⟨_, rfl, ?_, ?_⟩
    · intro p v hp
      rw [← hsl']
      rw [List.getElem?_append_left (List.getElem?_eq_some_iff.1 hp).1]; exact hp
    · intro _; simp
  · refine ⟨sl', ?_, fun _ _ h => h, ?_⟩
    · rw [← hsl']; exact slots_ne _ _ _ _ hf
    · intro hf'
      exact absurd (hf'.trans (parOf_growParent x.span st)) hf

/-- A new checkpoint in a fresh cell. -/
theorem HInv.fresh (h : HInv cells handles ckpt n)
    (hno : ∀ (k c : Nat) (m : Mark), handles[k]? = some c → n.marks[k]? = some m → m.live = true →
      m.frame = n.frame → m.pos = n.cur.topIds.length → False)
    (hfr : ∀ f, n.frame = some f → f < n.count) :
    HInv (cells ++ [⟨n.count, n.frame⟩]) (handles ++ [cells.length]) (some cells.length)
      { n with marks := n.marks ++ [⟨n.frame, n.cur.width, true⟩] } := by
  obtain ⟨h1, h2, h3, h4, h5, h6⟩ := h
  have lk : ∀ {k c : Nat} {m : Mark}, (handles ++ [cells.length])[k]? = some c →
      (n.marks ++ [⟨n.frame, n.cur.width, true⟩])[k]? = some m →
      (handles[k]? = some c ∧ n.marks[k]? = some m) ∨
      (k = handles.length ∧ c = cells.length ∧ m = ⟨n.frame, n.cur.width, true⟩) := by
    intro k c m hk hm
    by_cases hlt : k < handles.length
    · rw [List.getElem?_append_left hlt] at hk
      rw [List.getElem?_append_left (h1 ▸ hlt)] at hm
      exact Or.inl ⟨hk, hm⟩
    · have hk' : k = handles.length := by
        have := (List.getElem?_eq_some_iff.1 hk).1
        simp at this; omega
      right
      rw [hk'] at hk hm
      refine ⟨hk', by simpa using hk.symm, ?_⟩
      rw [h1] at hm; simpa using hm.symm
  have old : ∀ {k c : Nat}, handles[k]? = some c → c < cells.length := by
    intro k c hk
    have hlt : k < n.marks.length := h1 ▸ (List.getElem?_eq_some_iff.1 hk).1
    obtain ⟨m, hm⟩ : ∃ m, n.marks[k]? = some m := ⟨_, List.getElem?_eq_getElem hlt⟩
    obtain ⟨cell, a1, _⟩ := h2 k c m hk hm
    exact (List.getElem?_eq_some_iff.1 a1).1
  refine ⟨by simp [h1], ?_, ?_, ?_, ?_, ?_⟩
  · intro k c m hk hm
    rcases lk hk hm with ⟨hk, hm⟩ | ⟨rfl, rfl, rfl⟩
    · obtain ⟨cell, a1, a2⟩ := h2 k c m hk hm
      exact ⟨cell, by rw [List.getElem?_append_left (old hk)]; exact a1, a2⟩
    · refine ⟨⟨n.count, n.frame⟩, by simp, rfl, ?_, by simp, hfr⟩
      intro _ sl hsl
      have := slots_self (n.cur.topIds ++ [n.count]) n.stack
      have hfe : (n.frame : Option Nat) = parOf n.stack := rfl
      simp only at hsl
      rw [hfe, this] at hsl
      simp only [Option.some.injEq] at hsl
      rw [← hsl]; simp [topIds_length]
  · intro k k' c m m' hk hk' hm hm'
    rcases lk hk hm with ⟨hk, hm⟩ | ⟨rfl, rfl, rfl⟩ <;>
      rcases lk hk' hm' with ⟨hk', hm'⟩ | ⟨rfl, hc, rfl⟩
    · exact h3 k k' c m m' hk hk' hm hm'
    · have := old hk; omega
    · have := old hk'; omega
    · rfl
  · intro k k' c c' m hl hk hk' hm hm'
    rcases lk hk hm with ⟨hk, hm⟩ | ⟨rfl, rfl, rfl⟩ <;>
      rcases lk hk' hm' with ⟨hk', hm'⟩ | ⟨rfl, rfl, he⟩
    · exact h4 k k' c c' m hl hk hk' hm hm'
    · exact (hno k c m hk hm hl (by rw [he]) (by rw [he]; simp [topIds_length])).elim
    · exact (hno k' c' _ hk' hm' hl rfl (by simp [topIds_length])).elim
    · rfl
  · intro k c m hk hm hl hf hp
    rcases lk hk hm with ⟨hk, hm⟩ | ⟨rfl, rfl, rfl⟩
    · exact (hno k c m hk hm hl hf hp).elim
    · rfl
  · rintro c hc
    simp only [Option.some.injEq] at hc
    exact ⟨handles.length, by simp [hc]⟩

/-- A new checkpoint sharing the cached cell. -/
theorem HInv.reuse {c : Nat} {k0 : Nat} (h : HInv cells handles ckpt n) (hc : ckpt = some c)
    (hk0 : handles[k0]? = some c) (hm0 : n.marks[k0]? = some ⟨n.frame, n.cur.width, true⟩) :
    HInv cells (handles ++ [c]) ckpt
      { n with marks := n.marks ++ [⟨n.frame, n.cur.width, true⟩] } := by
  have lk : ∀ {k d : Nat} {m : Mark}, (handles ++ [c])[k]? = some d →
      (n.marks ++ [⟨n.frame, n.cur.width, true⟩])[k]? = some m →
      ∃ k' : Nat, handles[k']? = some d ∧ n.marks[k']? = some m := by
    intro k d m hk hm
    by_cases hlt : k < handles.length
    · rw [List.getElem?_append_left hlt] at hk
      rw [List.getElem?_append_left (h.len ▸ hlt)] at hm
      exact ⟨k, hk, hm⟩
    · have hk' : k = handles.length := by
        have := (List.getElem?_eq_some_iff.1 hk).1
        simp at this; omega
      refine ⟨k0, ?_, ?_⟩
      · rw [hk'] at hk; simp at hk; rw [← hk]; exact hk0
      · rw [hk', h.len] at hm; simp at hm; rw [← hm]; simpa using hm0
  obtain ⟨h1, h2, h3, h4, h5, h6⟩ := h
  refine ⟨by simp [h1], ?_, ?_, ?_, ?_, ?_⟩
  · intro k d m hk hm
    obtain ⟨k', a, b⟩ := lk hk hm
    exact h2 k' d m a b
  · intro k k' d m m' hk hk' hm hm'
    obtain ⟨k1, a, b⟩ := lk hk hm
    obtain ⟨k2, a', b'⟩ := lk hk' hm'
    exact h3 k1 k2 d m m' a a' b b'
  · intro k k' d d' m hl hk hk' hm hm'
    obtain ⟨k1, a, b⟩ := lk hk hm
    obtain ⟨k2, a', b'⟩ := lk hk' hm'
    exact h4 k1 k2 d d' m hl a a' b b'
  · intro k d m hk hm hl hf hp
    obtain ⟨k1, a, b⟩ := lk hk hm
    exact h5 k1 d m a b hl hf hp
  · intro d hd
    exact ⟨k0, by rw [hc] at hd; simp at hd; rw [← hd, List.getElem?_append_left
      (List.getElem?_eq_some_iff.1 hk0).1]; exact hk0⟩

/-- A stretch of siblings has been wrapped. -/
theorem HInv.wrap {c k0 p : Nat} (h : HInv cells handles ckpt n)
    (hk0 : handles[k0]? = some c) (hm0 : n.marks[k0]? = some ⟨n.frame, p, true⟩)
    (hp : p < n.cur.topIds.length) (hids : ∀ i ∈ n.cur.topIds, i < n.count)
    (lab : Lab α) (hlab : lab.id = n.count) :
    HInv (cells.set c ⟨n.count, n.frame⟩) handles ckpt
      { n with
        cur := n.cur.take p ++ single lab (n.cur.drop p)
        count := n.count + 1
        marks := n.marks.map fun m =>
          if m.frame = n.frame ∧ p < m.pos then { m with live := false } else m } := by
  obtain ⟨h1, h2, h3, h4, h5, h6⟩ := h
  have hcl : c < cells.length := by
    obtain ⟨cell, a1, _⟩ := h2 k0 c _ hk0 hm0
    exact (List.getElem?_eq_some_iff.1 a1).1
  have lk : ∀ {k : Nat} {m : Mark}, (n.marks.map fun m : Mark =>
      if m.frame = n.frame ∧ p < m.pos then { m with live := false } else m)[k]? = some m →
      ∃ m1, n.marks[k]? = some m1 ∧
        m = if m1.frame = n.frame ∧ p < m1.pos then { m1 with live := false } else m1 := by
    intro k m hm
    rw [List.getElem?_map] at hm
    cases hk : n.marks[k]? with
    | none => rw [hk] at hm; simp at hm
    | some m1 => rw [hk] at hm; simp at hm; exact ⟨m1, rfl, hm.symm⟩
  have hfr_eq : n.frame = parOf n.stack := rfl
  have htake : (n.cur.take p).topIds = n.cur.topIds.take p := by
    simp [Forest.topIds, tops_take]
  have htl : ((n.cur.take p).topIds).length = p := by rw [htake, List.length_take]; omega
  refine ⟨by simp [h1], ?_, ?_, ?_, ?_, h6⟩
  · intro k c1 m hk hm
    obtain ⟨m1, hm1, rfl⟩ := lk hm
    obtain ⟨cell, a1, a2, a3, a4, a5⟩ := h2 k c1 m1 hk hm1
    have hcell : ∃ cell', (cells.set c ⟨n.count, n.frame⟩)[c1]? = some cell' ∧
        ((c1 = c ∧ cell' = ⟨n.count, n.frame⟩ ∧ m1 = ⟨n.frame, p, true⟩) ∨
          (c1 ≠ c ∧ cell' = cell)) := by
      by_cases hcc : c1 = c
      · subst hcc
        exact ⟨_, List.getElem?_set_self hcl,
          Or.inl ⟨rfl, rfl, h3 _ _ _ _ _ hk hk0 hm1 hm0⟩⟩
      · exact ⟨cell, by rw [List.getElem?_set_ne (Ne.symm hcc)]; exact a1, Or.inr ⟨hcc, rfl⟩⟩
    obtain ⟨cell', b1, b2⟩ := hcell
    have hframe : (if m1.frame = n.frame ∧ p < m1.pos then { m1 with live := false } else m1).frame
        = m1.frame := by split <;> rfl
    have hpos : (if m1.frame = n.frame ∧ p < m1.pos then { m1 with live := false } else m1).pos
        = m1.pos := by split <;> rfl
    refine ⟨cell', b1, ?_, ?_, ?_, ?_⟩
    · rw [hframe]
      rcases b2 with ⟨_, rfl, rfl⟩ | ⟨_, rfl⟩
      · rfl
      · exact a2
    · intro hl sl hsl
      by_cases hkill : m1.frame = n.frame ∧ p < m1.pos
      · rw [if_pos hkill] at hl; simp at hl
      rw [if_neg hkill] at hl hsl ⊢
      by_cases hf : m1.frame = n.frame
      · rw [hf, hfr_eq, slots_self] at hsl
        simp only [Option.some.injEq, topIds_append, topIds_cons, topIds_nil, hlab] at hsl
        have hle : m1.pos ≤ p := by
          have : ¬ p < m1.pos := fun h => hkill ⟨hf, h⟩
          omega
        have hold := a3 hl _ (by rw [hf, hfr_eq]; exact slots_self _ _)
        rw [← hsl]
        rcases b2 with ⟨_, rfl, rfl⟩ | ⟨hcc, rfl⟩
        · simp only
          rw [List.append_assoc, List.getElem?_append_right (by omega), htl]; simp
        · have hlt : m1.pos < p := by
            rcases Nat.lt_or_ge m1.pos p with h | h
            · exact h
            · exfalso
              have : m1 = ⟨n.frame, p, true⟩ := by
                obtain ⟨a, b, c⟩ := m1; simp_all; omega
              exact hcc (h4 _ _ _ _ _ hl hk hk0 hm1 (this ▸ hm0))
          rw [List.append_assoc, List.getElem?_append_left (by omega), htake, List.getElem?_take]
          rw [if_pos hlt]
          rw [List.getElem?_append_left (by omega)] at hold
          exact hold
      · rcases b2 with ⟨_, _, rfl⟩ | ⟨hcc, rfl⟩
        · exact absurd rfl hf
        · refine a3 hl sl ?_
          rw [← hsl]
          exact slots_ne _ _ _ _ hf
    · intro hd
      rcases b2 with ⟨_, rfl, rfl⟩ | ⟨hcc, rfl⟩
      · simp
      · by_cases hkill : m1.frame = n.frame ∧ p < m1.pos
        · by_cases hl : m1.live = true
          · have hold := a3 hl _ (by rw [hkill.1, hfr_eq]; exact slots_self _ _)
            have hmem := List.mem_of_getElem? hold
            rw [List.mem_append] at hmem
            rcases hmem with hm | hm
            · have := hids _ hm; show cell'.node < n.count + 1; omega
            · simp at hm; show cell'.node < n.count + 1; omega
          · have := a4 (by simpa using hl)
            show cell'.node < n.count + 1; omega
        · rw [if_neg hkill] at hd
          have := a4 hd
          show cell'.node < n.count + 1; omega
    · rw [hframe]; intro f hf
      have := a5 f hf
      show f < n.count + 1; omega
  · intro k k' c1 m m' hk hk' hm hm'
    obtain ⟨m1, hm1, rfl⟩ := lk hm
    obtain ⟨m2, hm2, rfl⟩ := lk hm'
    rw [h3 k k' c1 m1 m2 hk hk' hm1 hm2]
  · intro k k' c1 c2 m hl hk hk' hm hm'
    obtain ⟨m1, hm1, e1⟩ := lk hm
    obtain ⟨m2, hm2, e2⟩ := lk hm'
    have : m = m1 := by
      rw [e1] at hl ⊢
      split at hl
      · simp at hl
      · rename_i hn; rw [if_neg hn]
    have : m = m2 := by
      rw [e2] at hl ⊢
      split at hl
      · simp at hl
      · rename_i hn; rw [if_neg hn]
    subst this
    exact h4 k k' c1 c2 m hl hk hk' (by rw [hm1, ‹m = m1›]) hm2
  · intro k c1 m hk hm hl hf hpp
    obtain ⟨m1, hm1, e1⟩ := lk hm
    exfalso
    have hm1' : m = m1 ∧ ¬ (m1.frame = n.frame ∧ p < m1.pos) := by
      rw [e1] at hl ⊢
      split at hl
      · simp at hl
      · rename_i hn; exact ⟨by rw [if_neg hn], hn⟩
    simp only [topIds_append, topIds_cons, topIds_nil, List.length_append, List.length_singleton,
      htl] at hpp
    have hff : m.frame = n.frame := hf
    exact hm1'.2 ⟨hm1'.1 ▸ hff, by rw [← hm1'.1]; omega⟩

end Syntree
