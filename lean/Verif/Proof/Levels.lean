import Verif.Proof.Hist

/-! The children of an open node before a checkpoint stay the same while the checkpoint is live. -/

namespace Syntree

variable {α : Type} {fl : Flavor}

open Forest

/-- The children so far of the open node (or root level) `f`. -/
def level (cur : Forest (Lab α)) : Stack α → Option Nat → Option (Forest (Lab α))
  | [], f => if f = none then some cur else none
  | (x, left) :: st, f => if f = some x.id then some cur else level left st f

theorem level_endParent (cur : Forest (Lab α)) (stop : Nat) (st : Stack α) (f : Option Nat) :
    level cur (Nest.endParent stop st) f = level cur st f := by
  cases st with
  | nil => rfl
  | cons p st => rfl

theorem level_growParent (cur : Forest (Lab α)) (sp : Span) (st : Stack α) (f : Option Nat) :
    level cur (Nest.growParent sp st) f = level cur st f := by
  cases st with
  | nil => rfl
  | cons p st => rfl

theorem level_self (cur : Forest (Lab α)) (st : Stack α) :
    level cur st (st.head?.map (·.1.id)) = some cur := by
  cases st with
  | nil => simp [level]
  | cons p st => simp [level]

theorem level_ne (cur cur' : Forest (Lab α)) (st : Stack α) (f : Option Nat)
    (h : f ≠ st.head?.map (·.1.id)) : level cur st f = level cur' st f := by
  cases st with
  | nil => simp at h; simp [level, h]
  | cons p st =>
    have : f ≠ some p.1.id := by simpa using h
    simp [level, this]

theorem level_mem (cur : Forest (Lab α)) (st : Stack α) (f : Nat) (L : Forest (Lab α))
    (h : level cur st (some f) = some L) : f ∈ stackIds st := by
  induction st generalizing cur with
  | nil => simp [level] at h
  | cons p st ih =>
    obtain ⟨x, left⟩ := p
    simp only [level] at h
    by_cases hf : some f = some x.id
    · simp only [Option.some.injEq] at hf; simp [stackIds, hf]
    · rw [if_neg hf] at h
      simp [stackIds, ih _ h]

/-- The children of `f` begin with `P`. -/
def Begins (P : Forest (Lab α)) (f : Option Nat) (n : Nest α) : Prop :=
  ∀ L, level n.cur n.stack f = some L → ∃ R, L = P ++ R

theorem take_append_ge (P R : Forest (Lab α)) (p : Nat) (h : P.width ≤ p) :
    (P ++ R).take p = P ++ R.take (p - P.width) := by
  induction P generalizing p with
  | nil => simp
  | cons x k r _ ih =>
    simp only [width_eq, tops_cons, List.length_cons] at h ih ⊢
    cases p with
    | zero => omega
    | succ p =>
      simp only [cons_append, take]
      rw [ih p (by omega)]
      congr 2; simp

theorem drop_append_ge (P R : Forest (Lab α)) (p : Nat) (h : P.width ≤ p) :
    (P ++ R).drop p = R.drop (p - P.width) := by
  induction P generalizing p with
  | nil => simp
  | cons x k r _ ih =>
    simp only [width_eq, tops_cons, List.length_cons] at h ih ⊢
    cases p with
    | zero => omega
    | succ p =>
      simp only [cons_append, drop]
      rw [ih p (by omega)]
      congr 1; simp

theorem Begins.leaf {P : Forest (Lab α)} {f : Option Nat} {n n' : Nest α}
    (h : Begins P f n) (hf : n'.stack.head?.map (·.1.id) = n.stack.head?.map (·.1.id))
    (hl : ∀ cur, level cur n'.stack f = level cur n.stack f) {x : Forest (Lab α)}
    (hc : n'.cur = n.cur ++ x) : Begins P f n' := by
  intro L hL
  rw [hl, hc] at hL
  by_cases he : f = n.stack.head?.map (·.1.id)
  · subst he
    rw [level_self] at hL
    obtain ⟨R, hR⟩ := h n.cur (level_self _ _)
    simp only [Option.some.injEq] at hL
    exact ⟨R ++ x, by rw [← hL, hR, append_assoc]⟩
  · rw [level_ne _ n.cur _ _ he] at hL
    exact h L hL

theorem head_endParent (stop : Nat) (st : Stack α) :
    (Nest.endParent stop st).head?.map (·.1.id) = st.head?.map (·.1.id) := by
  cases st <;> rfl

theorem head_growParent (sp : Span) (st : Stack α) :
    (Nest.growParent sp st).head?.map (·.1.id) = st.head?.map (·.1.id) := by
  cases st <;> rfl

/-- One call keeps the children before a position, unless it wraps from before that position. -/
theorem Begins.did {P : Forest (Lab α)} {f : Option Nat} {n n' : Nest α} {op : Op α}
    {o : Except Err Out} (h : Begins P f n) (hd : Did fl n op n' o)
    (hf : ∀ i, f = some i → i < n.count) (nd : (stackIds n.stack).Nodup)
    (hw : ∀ k m, n.marks[k]? = some m → (∃ d e, UsesAt op k d e) → m.live = true →
      m.frame = n.frame → n.frame = f → P.width ≤ m.pos ∨ n.cur.drop m.pos = .nil) :
    Begins P f n' := by
  cases hd with
  | fail _ _ => exact h
  | lost _ _ _ _ _ _ => exact h
  | noHandle _ => exact h
  | setCursor _ => exact h
  | mark _ => exact h
  | opened _ d sp hop _ =>
    intro L hL
    simp only [Nest.addOpen, level] at hL
    have hne : f ≠ some n.count := by
      intro e; have := hf _ e; omega
    rw [if_neg hne, level_endParent] at hL
    exact h L hL
  | emptyTok _ d hop _ =>
    exact h.leaf (head_endParent _ _) (fun _ => level_endParent _ _ _ _) rfl
  | tok d len c _ _ _ =>
    exact h.leaf (head_endParent _ _) (fun _ => level_endParent _ _ _ _) rfl
  | tokWith d sp _ =>
    refine h.leaf (n' := _) ?_ ?_ rfl
    · simp only [Nest.addLeaf, head_growParent, head_endParent]
    · intro cur; simp only [Nest.addLeaf, level_growParent, level_endParent]
  | closed x left st hs =>
    intro L hL
    simp only [level_growParent] at hL
    rw [hs] at nd
    simp only [stackIds, List.nodup_cons, List.mem_append, not_or] at nd
    have hfx : f ≠ some x.id := by
      rintro rfl
      exact nd.1.2 (level_mem _ _ _ _ hL)
    have hn : ∀ L, level left st f = some L → ∃ R, L = P ++ R := by
      intro L hL
      refine h L ?_
      rw [hs]; simp only [level]; rw [if_neg hfx]; exact hL
    by_cases he : f = st.head?.map (·.1.id)
    · subst he
      rw [level_self] at hL
      simp only [Option.some.injEq] at hL
      obtain ⟨R, hR⟩ := hn left (level_self _ _)
      exact ⟨R ++ single x n.cur, by rw [← hL, hR, append_assoc]⟩
    · rw [level_ne _ left _ _ he] at hL
      exact hn L hL
  | wrapped _ k d explicit m hop hk hfr hl _ =>
    have hu : ∃ d e, UsesAt op k d e := by
      rcases hop with ⟨rfl, _⟩ | ⟨sp, rfl, _⟩
      · exact ⟨d, none, .closeAt k d⟩
      · exact ⟨d, some sp, .closeAtWith k d sp⟩
    have hw' := hw k m hk hu hl hfr
    unfold Nest.wrap
    split
    · exact h.leaf (head_endParent _ _) (fun _ => level_endParent _ _ _ _) rfl
    · rename_i hnil
      intro L hL
      simp only at hL
      by_cases he : f = n.stack.head?.map (·.1.id)
      · subst he
        rw [level_self] at hL
        simp only [Option.some.injEq] at hL
        obtain ⟨R, hR⟩ := h n.cur (level_self _ _)
        rcases hw' rfl with hp | hp
        · rw [← hL]
          have : n.cur.take m.pos = P ++ R.take (m.pos - P.width) := by
            rw [hR, take_append_ge _ _ _ hp]
          rw [this, append_assoc]
          exact ⟨_, rfl⟩
        · rw [hp] at hnil; simp at hnil
      · rw [level_ne _ n.cur _ _ he] at hL
        exact h L hL

/-- States that some covered history reaches. -/
def Reach (fl : Flavor) (n : Nest α) : Prop := ∃ ops os, Nest.init.run fl ops = some (n, os)

theorem Reach.rel {n : Nest α} (h : Reach fl n) : ∃ s, Rel false s n := by
  obtain ⟨ops, os, h⟩ := h
  obtain ⟨s, _, r⟩ := (Rel.init false).run (g' := false) fl ops h (by simp)
  exact ⟨s, r⟩

theorem Reach.nodup {n : Nest α} (h : Reach fl n) : (stackIds n.stack).Nodup := by
  obtain ⟨s, r⟩ := h.rel
  exact (List.nodup_append.1 r.tree.nodup).2.1

theorem Reach.frame_lt {n : Nest α} (h : Reach fl n) {f : Nat} (hf : n.frame = some f) :
    f < n.count := by
  obtain ⟨s, r⟩ := h.rel
  exact r.frame_lt hf

theorem Reach.step {n n' : Nest α} {op : Op α} {o : Except Err Out} (h : Reach fl n)
    (hs : n.step fl op = some (n', o)) : Reach fl n' := by
  obtain ⟨ops, os, h⟩ := h
  refine ⟨ops ++ [op], os ++ [o], ?_⟩
  rw [Nest.run_append, h]
  simp only [Nest.run, hs]

theorem Reach.run_induct {P : Nest α → Prop} {n n' : Nest α} {ops : List (Op α)}
    {os : List (Except Err Out)} (hn : Reach fl n) (h : n.run fl ops = some (n', os)) (h0 : P n)
    (hs : ∀ n op n' o, op ∈ ops → Reach fl n → P n → n.step fl op = some (n', o) → P n') :
    P n' := by
  induction ops generalizing n os with
  | nil => simp only [Nest.run, Option.some.injEq, Prod.mk.injEq] at h; rw [← h.1]; exact h0
  | cons op ops ih =>
    simp only [Nest.run] at h
    cases h1 : n.step fl op with
    | none => rw [h1] at h; simp at h
    | some r =>
      obtain ⟨n1, o⟩ := r
      rw [h1] at h
      simp only at h
      cases h2 : n1.run fl ops with
      | none => rw [h2] at h; simp at h
      | some r2 =>
        obtain ⟨n2, os2⟩ := r2
        rw [h2] at h
        simp only [Option.some.injEq, Prod.mk.injEq] at h
        obtain ⟨rfl, rfl⟩ := h
        exact ih (hn.step h1) h2 (hs _ _ _ _ (by simp) hn h0 h1)
          (fun n op n' o ho => hs n op n' o (by simp [ho]))

theorem Reach.run {n n' : Nest α} {ops : List (Op α)} {os : List (Except Err Out)}
    (hn : Reach fl n) (h : n.run fl ops = some (n', os)) : Reach fl n' :=
  hn.run_induct h hn (fun _ _ _ _ _ hr _ hs => hr.step hs)

theorem Did.count_le {n n' : Nest α} {op : Op α} {o : Except Err Out}
    (h : Did fl n op n' o) : n.count ≤ n'.count := by
  rcases h.count with ⟨_, h⟩ | ⟨_, h⟩ <;> omega

/-- What a call does to a mark and to what is before it. -/
theorem Did.mark_keeps {n n' : Nest α} {op : Op α} {o : Except Err Out} (h : Did fl n op n' o)
    {k : Nat} {m : Mark} {P : Forest (Lab α)} (hm : n.marks[k]? = some m)
    (hb : m.live = true → Begins P m.frame n) (hp : m.pos = P.width)
    (hf : ∀ i, m.frame = some i → i < n.count) (nd : (stackIds n.stack).Nodup) :
    ∃ m', n'.marks[k]? = some m' ∧ m'.frame = m.frame ∧ m'.pos = m.pos ∧
      (m'.live = true → m.live = true) ∧ (m'.live = true → Begins P m.frame n') := by
  have go : (∀ k d e, ¬ UsesAt op k d e) → n'.marks[k]? = some m →
      ∃ m', n'.marks[k]? = some m' ∧ m'.frame = m.frame ∧ m'.pos = m.pos ∧
      (m'.live = true → m.live = true) ∧ (m'.live = true → Begins P m.frame n') := by
    intro hno hm'
    refine ⟨m, hm', rfl, rfl, id, fun hl => (hb hl).did h hf nd ?_⟩
    rintro k2 m2 _ ⟨d, e, hu⟩
    exact absurd hu (hno k2 d e)
  cases h with
  | fail _ _ => exact ⟨m, hm, rfl, rfl, id, hb⟩
  | lost _ _ _ _ _ _ => exact ⟨m, hm, rfl, rfl, id, hb⟩
  | noHandle _ => exact ⟨m, hm, rfl, rfl, id, hb⟩
  | setCursor _ => exact ⟨m, hm, rfl, rfl, id, hb⟩
  | mark _ =>
    refine ⟨m, ?_, rfl, rfl, id, hb⟩
    simp only
    rw [List.getElem?_append_left (List.getElem?_eq_some_iff.1 hm).1]; exact hm
  | opened _ d sp hop _ =>
    refine go ?_ hm
    rintro k d e hu
    rcases hop with ⟨rfl, _⟩ | rfl <;> cases hu
  | emptyTok _ d hop _ =>
    refine go ?_ hm
    rintro k d e hu
    rcases hop with ⟨_, rfl, _⟩ | rfl <;> cases hu
  | tok d len c _ _ _ => exact go (fun k d e hu => by cases hu) hm
  | tokWith d sp _ => exact go (fun k d e hu => by cases hu) hm
  | closed x left st hs => exact go (fun k d e hu => by cases hu) hm
  | wrapped _ k2 d explicit m2 hop hk hfr hl hfu =>
    by_cases hnil : (n.cur.drop m2.pos).isNil = true
    · have hm' : (n.wrap m2.pos d explicit).marks = n.marks := by
        unfold Nest.wrap; rw [if_pos hnil]; rfl
      rw [hm']
      refine ⟨m, hm, rfl, rfl, id, fun hl' => (hb hl').did
        (.wrapped _ k2 d explicit m2 hop hk hfr hl hfu) hf nd ?_⟩
      rintro k3 m3 hm3 ⟨d', e', hu⟩ _ _ _
      have : k3 = k2 := by
        rcases hop with ⟨rfl, _⟩ | ⟨sp, rfl, _⟩ <;> cases hu <;> rfl
      subst this
      rw [hk] at hm3
      obtain rfl := Option.some.inj hm3
      right
      cases hd : n.cur.drop m2.pos with
      | nil => rfl
      | cons x k r => rw [hd] at hnil; simp at hnil
    · have hm' : (n.wrap m2.pos d explicit).marks = n.marks.map fun m =>
          if m.frame = n.frame ∧ m2.pos < m.pos then { m with live := false } else m := by
        unfold Nest.wrap; rw [if_neg hnil]
      have hget : (n.wrap m2.pos d explicit).marks[k]? = some
          (if m.frame = n.frame ∧ m2.pos < m.pos then { m with live := false } else m) := by
        rw [hm', List.getElem?_map, hm]; rfl
      refine ⟨_, hget, ?_⟩
      by_cases hc : m.frame = n.frame ∧ m2.pos < m.pos
      · rw [if_pos hc]
        exact ⟨rfl, rfl, by simp, by simp⟩
      · rw [if_neg hc]
        refine ⟨rfl, rfl, id, fun hl' => (hb hl').did
          (.wrapped _ k2 d explicit m2 hop hk hfr hl hfu) hf nd ?_⟩
        rintro k3 m3 hm3 ⟨d', e', hu⟩ _ _ he
        have : k3 = k2 := by
          rcases hop with ⟨rfl, _⟩ | ⟨sp, rfl, _⟩ <;> cases hu <;> rfl
        subst this
        rw [hk] at hm3
        obtain rfl := Option.some.inj hm3
        left
        rw [← hp]
        have : ¬ m2.pos < m.pos := fun h => hc ⟨he.symm, h⟩
        omega

/-- From taking a checkpoint to using it. -/
theorem Reach.since {n1 n2 : Nest α} {k : Nat} {m : Mark} {mid : List (Op α)}
    {os : List (Except Err Out)} (hr : Reach fl n1) (hm : n1.marks[k]? = some m)
    (hfr : ∀ i, m.frame = some i → i < n1.count)
    {P : Forest (Lab α)} (hp : m.pos = P.width) (hb : m.live = true → Begins P m.frame n1)
    (h : n1.run fl mid = some (n2, os)) :
    ∃ m', n2.marks[k]? = some m' ∧ m'.frame = m.frame ∧ m'.pos = m.pos ∧
      (m'.live = true → m.live = true) ∧ (m'.live = true → Begins P m.frame n2) := by
  have key := hr.run_induct h (P := fun n2 => n1.count ≤ n2.count ∧
    ∃ m', n2.marks[k]? = some m' ∧ m'.frame = m.frame ∧ m'.pos = m.pos ∧
      (m'.live = true → m.live = true) ∧ (m'.live = true → Begins P m.frame n2))
    ⟨Nat.le_refl _, m, hm, rfl, rfl, id, hb⟩ ?_
  · exact key.2
  · rintro n op n' o _ hr' ⟨hc, m', hm', e1, e2, hl, hb'⟩ hs
    have hd := Nest.step_did hs
    obtain ⟨m'', h1, h2, h3, h4, h5⟩ := hd.mark_keeps (P := P) hm' (by rw [e1]; exact hb')
      (by rw [e2, hp]) (fun i hi => Nat.lt_of_lt_of_le (hfr i (e1 ▸ hi)) hc) hr'.nodup
    refine ⟨Nat.le_trans hc hd.count_le, m'', h1, h2.trans e1, h3.trans e2, fun h => hl (h4 h), ?_⟩
    rw [← e1]; exact h5

end Syntree
