import Verif.Proof.Context
import Verif.Proof.Bridge
import Verif.Proof.Spans
import Verif.Spec.Late

/-!
Two builders that differ only in the ids of finished nodes and in some checkpoints go on in the same
way.
-/

namespace Syntree

open Forest

variable {α : Type} {fl : Flavor}

/-- The same node with another id. -/
def Lab.relab (ρ : Nat → Nat) (x : Lab α) : Lab α := ⟨ρ x.id, x.data, x.span⟩

def relStack (ρ : Nat → Nat) (st : Stack α) : Stack α := st.map fun p => (p.1, p.2.map (Lab.relab ρ))

/-- The two states differ in the ids of finished nodes, which are renamed by `ρ`, and in the
checkpoints from `lo` to `hi`. -/
structure Renamed (ρ : Nat → Nat) (lo hi : Nat) (n n' : Nest α) : Prop where
  cur : n'.cur = n.cur.map (Lab.relab ρ)
  stack : n'.stack = relStack ρ n.stack
  cursor : n'.cursor = n.cursor
  count : n'.count = n.count
  stop : n'.stop = n.stop
  len : n'.marks.length = n.marks.length
  marks : ∀ j, (j < lo ∨ hi ≤ j) → n'.marks[j]? = n.marks[j]?
  opened : ∀ p ∈ n.stack, ρ p.1.id = p.1.id
  new : ∀ i, n.count ≤ i → ρ i = i

section
variable {ρ : Nat → Nat} {lo hi : Nat} {n n' : Nest α}

theorem Renamed.frame (h : Renamed ρ lo hi n n') : n'.frame = n.frame := by
  unfold Nest.frame
  rw [h.stack, relStack]
  cases n.stack <;> rfl

theorem Renamed.full (h : Renamed ρ lo hi n n') : n'.full fl = n.full fl := by
  simp [Nest.full, h.count]

theorem relStack_endParent (c : Nat) (st : Stack α) :
    Nest.endParent c (relStack ρ st) = relStack ρ (Nest.endParent c st) := by
  cases st <;> rfl

theorem relStack_growParent (c : Span) (st : Stack α) :
    Nest.growParent c (relStack ρ st) = relStack ρ (Nest.growParent c st) := by
  cases st <;> rfl

theorem opened_endParent {c : Nat} {st : Stack α} (h : ∀ p ∈ st, ρ p.1.id = p.1.id) :
    ∀ p ∈ Nest.endParent c st, ρ p.1.id = p.1.id := by
  cases st with
  | nil => exact h
  | cons q st =>
    intro p hp
    rcases List.mem_cons.1 hp with rfl | hp
    · exact h q List.mem_cons_self
    · exact h p (List.mem_cons_of_mem _ hp)

theorem opened_growParent {c : Span} {st : Stack α} (h : ∀ p ∈ st, ρ p.1.id = p.1.id) :
    ∀ p ∈ Nest.growParent c st, ρ p.1.id = p.1.id := by
  cases st with
  | nil => exact h
  | cons q st =>
    intro p hp
    rcases List.mem_cons.1 hp with rfl | hp
    · exact h q List.mem_cons_self
    · exact h p (List.mem_cons_of_mem _ hp)

theorem Renamed.addLeaf (h : Renamed ρ lo hi n n') (d : α) (sp : Span) :
    Renamed ρ lo hi (n.addLeaf d sp) (n'.addLeaf d sp) where
  cur := by
    simp only [Nest.addLeaf, h.cur, map_app, h.count, Forest.map, Lab.relab, h.new _ (Nat.le_refl _)]
  stack := by simp only [Nest.addLeaf, h.stack, relStack_endParent]
  cursor := h.cursor
  count := by simp only [Nest.addLeaf, h.count]
  stop := h.stop
  len := h.len
  marks := h.marks
  opened := opened_endParent h.opened
  new := fun i hi => h.new i (by simp only [Nest.addLeaf] at hi; omega)

theorem Renamed.addOpen (h : Renamed ρ lo hi n n') (d : α) (sp : Span) :
    Renamed ρ lo hi (n.addOpen d sp) (n'.addOpen d sp) where
  cur := rfl
  stack := by simp only [Nest.addOpen, h.stack, relStack_endParent, h.cur, h.count]; rfl
  cursor := h.cursor
  count := by simp only [Nest.addOpen, h.count]
  stop := h.stop
  len := h.len
  marks := h.marks
  opened := by
    intro p hp
    rcases List.mem_cons.1 hp with rfl | hp
    · exact h.new _ (Nat.le_refl _)
    · exact opened_endParent h.opened p hp
  new := fun i hi => h.new i (by simp only [Nest.addOpen] at hi; omega)

theorem Renamed.setCursor (h : Renamed ρ lo hi n n') (c : Nat) :
    Renamed ρ lo hi { n with cursor := c } { n' with cursor := c } :=
  ⟨h.cur, h.stack, rfl, h.count, h.stop, h.len, h.marks, h.opened, h.new⟩

theorem Renamed.setStop (h : Renamed ρ lo hi n n') (c : Nat) :
    Renamed ρ lo hi { n with cursor := c, stop := c } { n' with cursor := c, stop := c } :=
  ⟨h.cur, h.stack, rfl, h.count, rfl, h.len, h.marks, h.opened, h.new⟩

theorem Renamed.grow (h : Renamed ρ lo hi n n') (sp : Span) (c : Nat) :
    Renamed ρ lo hi { n with stack := Nest.growParent sp n.stack, cursor := c }
      { n' with stack := Nest.growParent sp n'.stack, cursor := c } :=
  ⟨h.cur, by simp only [h.stack, relStack_growParent], rfl, h.count, h.stop, h.len, h.marks,
    opened_growParent h.opened, h.new⟩

theorem Renamed.mark (h : Renamed ρ lo hi n n') :
    Renamed ρ lo hi { n with marks := n.marks ++ [⟨n.frame, n.cur.width, true⟩] }
      { n' with marks := n'.marks ++ [⟨n'.frame, n'.cur.width, true⟩] } := by
  refine ⟨h.cur, h.stack, h.cursor, h.count, h.stop, by simp [h.len], ?_, h.opened, h.new⟩
  intro j hj
  have hw : n'.cur.width = n.cur.width := by rw [h.cur]; simp [width_eq, map_tops]
  simp only [h.frame, hw]
  rw [List.getElem?_append, List.getElem?_append, h.len, h.marks j hj]

theorem stretch_relab (F : Forest (Lab α)) : Nest.stretch (F.map (Lab.relab ρ)) = Nest.stretch F := by
  simp only [Nest.stretch, head?, last?, Forest.map_tops, List.head?_map, List.getLast?_map,
    Option.map_map]
  rfl

theorem Renamed.wrap (h : Renamed ρ lo hi n n') (p : Nat) (d : α) (e : Option Span) :
    Renamed ρ lo hi (n.wrap p d e) (n'.wrap p d e) := by
  have hd : n'.cur.drop p = (n.cur.drop p).map (Lab.relab ρ) := by rw [h.cur, map_drop]
  unfold Nest.wrap
  rw [hd, map_isNil]
  cases (n.cur.drop p).isNil with
  | true =>
    simp only [if_true, h.cursor]
    exact h.addLeaf _ _
  | false =>
    simp only [Bool.false_eq_true, if_false]
    refine ⟨?_, h.stack, h.cursor, ?_, h.stop, ?_, ?_, h.opened, ?_⟩
    · simp only [map_app, Forest.map, h.count, stretch_relab, ← map_take, ← h.cur, Lab.relab,
        h.new _ (Nat.le_refl _)]
    · simp only [h.count]
    · simp only [List.length_map, h.len]
    · intro j hj
      simp only [List.getElem?_map, h.marks j hj, h.frame]
    · intro i hi
      exact h.new i (by simp only at hi; omega)

theorem Renamed.closeAt (h : Renamed ρ lo hi n n') {k : Nat} (hk : k < lo ∨ hi ≤ k) (d : α)
    (e : Option Span) :
    (n.closeAt fl k d e = none ∧ n'.closeAt fl k d e = none) ∨
    ∃ m m' o, n.closeAt fl k d e = some (m, o) ∧ n'.closeAt fl k d e = some (m', o) ∧
      Renamed ρ lo hi m m' := by
  unfold Nest.closeAt
  rw [h.marks k hk, h.frame, h.full (fl := fl), h.count]
  cases n.marks[k]? with
  | none => exact .inr ⟨_, _, _, rfl, rfl, h⟩
  | some mk =>
    dsimp only
    split
    · exact .inr ⟨_, _, _, rfl, rfl, h⟩
    · split
      · exact .inr ⟨_, _, _, rfl, rfl, h⟩
      · split
        · exact .inl ⟨rfl, rfl⟩
        · exact .inr ⟨_, _, _, rfl, rfl, h.wrap _ _ _⟩

theorem Renamed.token (h : Renamed ρ lo hi n n') (d : α) (len : Nat) :
    ∃ m m' o, n.token fl d len = (m, o) ∧ n'.token fl d len = (m', o) ∧ Renamed ρ lo hi m m' := by
  unfold Nest.token
  rw [h.full (fl := fl), h.cursor, h.count]
  split
  · split
    · exact ⟨_, _, _, rfl, rfl, h⟩
    · exact ⟨_, _, _, rfl, rfl, h.addLeaf _ _⟩
  · cases fl.ik.checkedAddLen n.cursor len with
    | none => exact ⟨_, _, _, rfl, rfl, h⟩
    | some c =>
      dsimp only
      have h4 := h.setStop c
      simp only [h.count] at h4
      split
      · exact ⟨_, _, _, rfl, rfl, h4⟩
      · exact ⟨_, _, _, rfl, rfl, h4.addLeaf _ _⟩

theorem Renamed.openWith (h : Renamed ρ lo hi n n') (d : α) (sp : Span) :
    ∃ m m' o, n.openWith fl d sp = (m, o) ∧ n'.openWith fl d sp = (m', o) ∧ Renamed ρ lo hi m m' := by
  unfold Nest.openWith
  rw [h.full (fl := fl), h.count]
  split
  · exact ⟨_, _, _, rfl, rfl, h⟩
  · exact ⟨_, _, _, rfl, rfl, h.addOpen _ _⟩

theorem Renamed.step (h : Renamed ρ lo hi n n') {op : Op α}
    (hu : ∀ k d e, UsesAt op k d e → k < lo ∨ hi ≤ k) :
    (n.step fl op = none ∧ n'.step fl op = none) ∨
    ∃ m m' o, n.step fl op = some (m, o) ∧ n'.step fl op = some (m', o) ∧ Renamed ρ lo hi m m' := by
  cases op with
  | «open» d =>
    obtain ⟨m, m', o, h1, h2, h3⟩ := h.openWith (fl := fl) d (Span.point n.cursor)
    exact .inr ⟨m, m', o, by simp only [Nest.step, h1], by simp only [Nest.step, h.cursor, h2], h3⟩
  | openWith d sp =>
    obtain ⟨m, m', o, h1, h2, h3⟩ := h.openWith (fl := fl) d sp
    exact .inr ⟨m, m', o, by simp only [Nest.step, h1], by simp only [Nest.step, h2], h3⟩
  | close =>
    right
    simp only [Nest.step, h.stack]
    cases hst : n.stack with
    | nil =>
      simp only [relStack, List.map_nil]
      exact ⟨_, _, _, rfl, rfl, h⟩
    | cons p st =>
      obtain ⟨x, left⟩ := p
      simp only [relStack, List.map_cons]
      refine ⟨_, _, _, rfl, rfl, ?_⟩
      have hx : ρ x.id = x.id := h.opened (x, left) (by rw [hst]; exact List.mem_cons_self)
      refine ⟨?_, ?_, rfl, h.count, h.stop, h.len, h.marks, ?_, h.new⟩
      · simp only [map_app, Forest.map, h.cur, Lab.relab, hx]
      · exact relStack_growParent _ _
      · exact opened_growParent fun p hp => h.opened p (by rw [hst]; exact List.mem_cons_of_mem _ hp)
  | token d len =>
    obtain ⟨m, m', o, h1, h2, h3⟩ := h.token (fl := fl) d len
    exact .inr ⟨m, m', o, by simp only [Nest.step, h1], by simp only [Nest.step, h2], h3⟩
  | tokenEmpty d =>
    obtain ⟨m, m', o, h1, h2, h3⟩ := h.token (fl := fl) d 0
    exact .inr ⟨m, m', o, by simp only [Nest.step, h1], by simp only [Nest.step, h2], h3⟩
  | tokenWith d sp =>
    right
    simp only [Nest.step, h.full (fl := fl), h.count]
    split
    · exact ⟨_, _, _, rfl, rfl, h⟩
    · exact ⟨_, _, _, rfl, rfl, (h.addLeaf d sp).grow sp sp.stop⟩
  | checkpoint =>
    right
    simp only [Nest.step, h.full (fl := fl), h.len]
    split
    · exact ⟨_, _, _, rfl, rfl, h⟩
    · exact ⟨_, _, _, rfl, rfl, h.mark⟩
  | closeAt k d => exact h.closeAt (hu k d none (.closeAt k d)) d none
  | closeAtWith k d sp => exact h.closeAt (hu k d (some sp) (.closeAtWith k d sp)) d (some sp)
  | setCursor i => exact .inr ⟨_, _, _, rfl, rfl, h.setCursor i⟩

theorem Renamed.run {ops : List (Op α)} : ∀ {n n' : Nest α}, Renamed ρ lo hi n n' →
    (∀ op ∈ ops, ∀ k d e, UsesAt op k d e → k < lo ∨ hi ≤ k) →
    (n.run fl ops = none ∧ n'.run fl ops = none) ∨
    ∃ m m' os, n.run fl ops = some (m, os) ∧ n'.run fl ops = some (m', os) ∧ Renamed ρ lo hi m m' := by
  induction ops with
  | nil => intro n n' h _; exact .inr ⟨_, _, _, rfl, rfl, h⟩
  | cons op ops ih =>
    intro n n' h hu
    simp only [Nest.run]
    rcases h.step (fl := fl) (hu op List.mem_cons_self) with ⟨h1, h2⟩ | ⟨m, m', o, h1, h2, h3⟩
    · rw [h1, h2]; exact .inl ⟨rfl, rfl⟩
    · rw [h1, h2]
      dsimp only
      rcases ih h3 (fun o ho => hu o (List.mem_cons_of_mem _ ho)) with ⟨h4, h5⟩ | ⟨q, q', os, h4, h5, h6⟩
      · rw [h4, h5]; exact .inl ⟨rfl, rfl⟩
      · rw [h4, h5]; exact .inr ⟨q, q', _, rfl, rfl, h6⟩

end

/-! The spans are determined by where things are. -/

theorem Tiled.start_unique {a a' b b' : Nat} {F : Forest (Lab α)} (h : Tiled a F b) (h' : Tiled a' F b')
    (hb : F = .nil → b = b') : a = a' := by
  cases F with
  | nil => simp only [Tiled] at h h'; have := hb rfl; omega
  | cons x k r => have := h.1; have := h'.1; omega

theorem OkStack.unique {st st' : Stack α} : ∀ {s e : Nat}, OkStack st s e → OkStack st' s e →
    plainStack st = plainStack st' → st = st' := by
  induction st generalizing st' with
  | nil => intro s e _ _ h; cases st' <;> simp [plainStack] at h; rfl
  | cons p st ih =>
    intro s e h1 h2 h
    cases st' with
    | nil => simp [plainStack] at h
    | cons p' st' =>
      obtain ⟨x, l⟩ := p
      obtain ⟨x', l'⟩ := p'
      simp only [plainStack, List.map_cons, List.cons.injEq, Prod.mk.injEq] at h
      obtain ⟨⟨h3, h4, rfl⟩, h5⟩ := h
      obtain ⟨h6, a, h7, h8⟩ := h1
      obtain ⟨h6', a', h7', h8'⟩ := h2
      have : a = a' := h7.start_unique h7' (fun _ => rfl)
      subst this
      rw [ih h8 h8' h5]
      cases x; cases x'
      simp_all

theorem SpanInv.of_run {ops : List (Op α)} {n : Nest α} {os : List (Except Err Out)}
    (h : Nest.init.run fl ops = some (n, os)) (hc : ∀ op ∈ ops, op.cursorDriven = true)
    (hsp : Spare fl n.count os) : SpanInv n :=
  Spare.induct (P := fun _ n _ => SpanInv n) SpanInv.init
    (fun _ _ _ _ _ _ h1 _ h3 h4 h5 => h3.did (Nest.step_did h4) h1 h5) ops n os h hc hsp

/-- How the ids of the late tree are renamed: `c` nodes from `i` on come one later, the node after
them comes first. -/
def turn (i c j : Nat) : Nat :=
  if j < i then j else if j < i + c then j + 1 else if j = i + c then i else j

theorem map_relab_fix {ρ : Nat → Nat} {F : Forest (Lab α)} (h : ∀ i ∈ F.ids, ρ i = i) :
    F.map (Lab.relab ρ) = F := by
  induction F with
  | nil => rfl
  | cons x k r ih1 ih2 =>
    simp only [Forest.ids, Forest.preorder, List.map_cons, List.map_append, List.mem_cons,
      List.mem_append] at h
    simp only [Forest.map]
    rw [ih1 (fun i hi => h i (.inr (.inl hi))), ih2 (fun i hi => h i (.inr (.inr hi))), Lab.relab,
      h x.id (.inl rfl)]

theorem map_relab_shift {i c e : Nat} {F : Forest (Lab α)} (h : ∀ j ∈ F.ids, j < c) :
    (F.map (Lab.shift i e)).map (Lab.relab (turn i c)) = F.map (Lab.shift (i + 1) e) := by
  induction F with
  | nil => rfl
  | cons x k r ih1 ih2 =>
    simp only [Forest.ids, Forest.preorder, List.map_cons, List.map_append, List.mem_cons,
      List.mem_append] at h
    simp only [Forest.map]
    rw [ih1 (fun i hi => h i (.inr (.inl hi))), ih2 (fun i hi => h i (.inr (.inr hi)))]
    have := h x.id (.inl rfl)
    have e1 : turn i c (x.id + i) = x.id + (i + 1) := by
      unfold turn
      rw [if_neg (by omega), if_pos (by omega)]
      omega
    simp only [Lab.relab, Lab.shift, e1]

theorem Nest.run_only (n : Nest α) (op : Op α) : n.run fl [op] =
    (n.step fl op).map fun r => (r.1, [r.2]) := by
  simp only [Nest.run]
  cases n.step fl op <;> rfl

theorem Nest.run_step_cons {n n1 : Nest α} {op : Op α} {o : Except Err Out} (ops : List (Op α))
    (h : n.step fl op = some (n1, o)) :
    n.run fl (op :: ops) = (n1.run fl ops).map fun r => (r.1, o :: r.2) := by
  simp only [Nest.run, h]
  cases n1.run fl ops <;> rfl

theorem stackIds_plain {st st' : Stack α} (h : plainStack st = plainStack st') :
    stackIds st = stackIds st' := by
  induction st generalizing st' with
  | nil => cases st' <;> simp [plainStack] at h; rfl
  | cons p st ih =>
    cases st' with
    | nil => simp [plainStack] at h
    | cons p' st' =>
      obtain ⟨x, l⟩ := p
      obtain ⟨x', l'⟩ := p'
      simp only [plainStack, List.map_cons, List.cons.injEq, Prod.mk.injEq] at h
      obtain ⟨⟨h3, h4, rfl⟩, h5⟩ := h
      simp only [stackIds, h3, ih h5]

theorem relStack_fix {ρ : Nat → Nat} {st : Stack α} (h : ∀ i ∈ stackIds st, ρ i = i) :
    relStack ρ st = st ∧ ∀ p ∈ st, ρ p.1.id = p.1.id := by
  induction st with
  | nil => exact ⟨rfl, by simp⟩
  | cons p st ih =>
    obtain ⟨x, l⟩ := p
    simp only [stackIds, List.mem_append, List.mem_cons] at h
    obtain ⟨h1, h2⟩ := ih (fun i hi => h i (by simp [hi]))
    refine ⟨?_, ?_⟩
    · simp only [relStack, List.map_cons] at h1 ⊢
      rw [h1, map_relab_fix (fun i hi => h i (by simp [hi]))]
    · intro p hp
      rcases List.mem_cons.1 hp with rfl | hp
      · exact h _ (by simp)
      · exact h2 p hp

theorem Tiled.relab {ρ : Nat → Nat} {a b : Nat} {F : Forest (Lab α)} :
    Tiled a (F.map (Lab.relab ρ)) b ↔ Tiled a F b := by
  induction F generalizing a b with
  | nil => rfl
  | cons x k r ih1 ih2 =>
    simp only [Forest.map, Tiled, ih1, ih2, Lab.relab]
    have : k.map (Lab.relab ρ) ≠ .nil ↔ k ≠ .nil := by cases k <;> simp [Forest.map]
    rw [this]

theorem plainStack_endParent (c : Nat) (st : Stack α) : plainStack (Nest.endParent c st) = plainStack st := by
  cases st <;> rfl

theorem plainStack_growParent (c : Span) (st : Stack α) :
    plainStack (Nest.growParent c st) = plainStack st := by
  cases st <;> rfl

/-- Wrapping what comes after `P`. -/
theorem Nest.wrap_after {n : Nest α} {P R : Forest (Lab α)} (h : n.cur = P ++ R) (d : α) :
    (n.wrap P.width d none).cur = P ++ Forest.single ⟨n.count, d,
      if R.isNil then Span.point n.cursor else Nest.stretch R⟩ R ∧
    plainStack (n.wrap P.width d none).stack = plainStack n.stack ∧
    (n.wrap P.width d none).cursor = n.cursor ∧ (n.wrap P.width d none).count = n.count + 1 ∧
    (n.wrap P.width d none).marks = (if R.isNil then n.marks else n.marks.map fun m =>
        if m.frame = n.frame ∧ P.width < m.pos then { m with live := false } else m) := by
  have hd : n.cur.drop P.width = R := by rw [h, drop_width]
  have ht : n.cur.take P.width = P := by rw [h, take_width]
  unfold Nest.wrap
  rw [hd, ht]
  cases hR : R.isNil with
  | true =>
    cases R with
    | cons => simp at hR
    | nil =>
      simp only [if_true, Nest.addLeaf, h, append_nil]
      simpa using plainStack_endParent _ _
  | false =>
    simp

theorem late_early {pre sub : List (Op α)} {n0 ns : Nest α} {os0 oss : List (Except Err Out)} (d : α)
    (hpre : ∀ op ∈ pre, op.cursorDriven = true) (hp : Nest.init.run fl pre = some (n0, os0))
    (hsub : ∀ op ∈ sub, op.cursorDriven = true) (es : Nest.init.run fl sub = some (ns, oss))
    (hok : ∀ o ∈ oss, ∃ v, o = .ok v) (hst : ns.stack = [])
    (hroom : n0.count + ns.count + 1 < 2 ^ fl.width - 1)
    (hix : ∀ w, fl.ik = .bits w → n0.cursor + textLen fl sub < 2 ^ w) :
    ∃ n2 n2', Nest.init.run fl (decideLate n0.marks.length d pre sub []) = some (n2, os0 ++
        .ok (.handle n0.marks.length) :: (oss.map (Except.map (Out.shift n0.count (n0.marks.length + 1))) ++
          [.ok (.id (n0.count + ns.count))])) ∧
      Nest.init.run fl (decideEarly n0.marks.length d pre sub []) = some (n2', os0 ++
        .ok (.handle n0.marks.length) :: .ok (.id n0.count) ::
          (oss.map (Except.map (Out.shift (n0.count + 1) (n0.marks.length + 1))) ++ [.ok .unit])) ∧
      Renamed (turn n0.count ns.count) (n0.marks.length + 1) (n0.marks.length + 1 + ns.marks.length)
        n2 n2' := by
  have hr0 : Reach fl n0 := ⟨_, _, hp⟩
  have hrs : Reach fl ns := ⟨_, _, es⟩
  have hnf : n0.full fl = false := by
    have := not_full_iff (fl := fl) (n := n0).2 (by omega)
    simpa using this
  -- after the checkpoint
  have e1 : n0.step fl .checkpoint = some ({ n0 with marks := n0.marks ++ [⟨n0.frame, n0.cur.width, true⟩] },
      .ok (.handle n0.marks.length)) := by simp [Nest.step, hnf]
  generalize hn1 : ({ n0 with marks := n0.marks ++ [⟨n0.frame, n0.cur.width, true⟩] } : Nest α) = n1 at e1
  have c1 : n1.count = n0.count := by rw [← hn1]
  have u1 : n1.cur = n0.cur := by rw [← hn1]
  have t1 : n1.stack = n0.stack := by rw [← hn1]
  have k1 : n1.cursor = n0.cursor := by rw [← hn1]
  have m1 : n1.marks = n0.marks ++ [⟨n0.frame, n0.cur.width, true⟩] := by rw [← hn1]
  have f1 : n1.frame = n0.frame := by rw [← hn1]; rfl
  have l1 : n1.marks.length = n0.marks.length + 1 := by rw [m1]; simp
  have r1' : Nest.init.run fl (pre ++ [.checkpoint]) = some (n1, os0 ++ [.ok (.handle n0.marks.length)]) := by
    rw [Nest.run_append, hp]; simp only [Nest.run_only, e1, Option.map_some]
  have r1 : Reach fl n1 := ⟨_, _, r1'⟩
  have hnf1 : n1.full fl = false := by
    have := not_full_iff (fl := fl) (n := n1).2 (by omega)
    simpa using this
  -- after `open`
  have e1' : n1.step fl (.open d) = some (n1.addOpen d (Span.point n0.cursor), .ok (.id n0.count)) := by
    simp [Nest.step, Nest.openWith, hnf1, k1, c1]
  generalize hn1' : n1.addOpen d (Span.point n0.cursor) = n1' at e1'
  have c1' : n1'.count = n0.count + 1 := by rw [← hn1']; simp [Nest.addOpen, c1]
  have u1' : n1'.cur = .nil := by rw [← hn1']; rfl
  have k1' : n1'.cursor = n0.cursor := by rw [← hn1']; simp [Nest.addOpen, k1]
  have m1' : n1'.marks = n1.marks := by rw [← hn1']; rfl
  have t1' : plainStack n1'.stack = (n0.count, d, n0.cur) :: plainStack n0.stack := by
    rw [← hn1']
    simp only [Nest.addOpen, u1, t1, c1]
    show _ :: plainStack (Nest.endParent _ _) = _
    rw [plainStack_endParent]
  have r1e : Nest.init.run fl (pre ++ [.checkpoint, .open d]) =
      some (n1', os0 ++ [.ok (.handle n0.marks.length), .ok (.id n0.count)]) := by
    rw [Nest.run_append, hp]
    simp only [Nest.run_step_cons _ e1, Nest.run_only, e1', Option.map_some]
  have r1e' : Reach fl n1' := ⟨_, _, r1e⟩
  -- `sub` after the checkpoint
  obtain ⟨nL, eL, wL⟩ := (Placed.init n1).run (fl := fl) (A := 0) r1.outer hsub es hok (by omega)
    ⟨Nat.le_refl _, by simp [Nest.init]⟩ (by intro w hw; have := hix w hw; omega)
  obtain ⟨nE, eE, wE⟩ := (Placed.init n1').run (fl := fl) (A := 0) r1e'.outer hsub es hok (by omega)
    ⟨Nat.le_refl _, by simp [Nest.init]⟩ (by intro w hw; have := hix w hw; omega)
  rw [l1, c1] at eL
  rw [m1', l1, c1'] at eE
  -- the late state
  have uL : nL.cur = n0.cur ++ ns.cur.map (Lab.shift n0.count n0.cursor) := by
    rw [wL.cur]; simp [embCur, hst, u1, c1, k1]
  have cL : nL.count = n0.count + ns.count := by rw [wL.count, c1]; omega
  have kL : nL.cursor = ns.cursor + n0.cursor := by rw [wL.cursor, k1]
  have fL : nL.frame = n0.frame := by rw [wL.frame, frame_empty.2 hst, f1]
  have mL : nL.marks = n0.marks ++ [⟨n0.frame, n0.cur.width, true⟩] ++ ns.marks.map (Mark.embed n1) := by
    rw [wL.marks, m1]
  have tL : plainStack nL.stack = plainStack n0.stack := by
    obtain ⟨st0, p1, p2⟩ := wL.stack
    rw [p2, hst, embStack, List.nil_append, p1, t1]
  have hnfL : nL.full fl = false := by
    have := not_full_iff (fl := fl) (n := nL).2 (by omega)
    simpa using this
  have e2 : nL.step fl (.closeAt n0.marks.length d) =
      some (nL.wrap n0.cur.width d none, .ok (.id (n0.count + ns.count))) := by
    have hk : nL.marks[n0.marks.length]? = some ⟨n0.frame, n0.cur.width, true⟩ := by
      rw [mL]; simp
    simp [Nest.step, Nest.closeAt, hk, fL, hnfL, cL]
  obtain ⟨w1, w2, w3, w4, w5⟩ := Nest.wrap_after uL d
  generalize nL.wrap n0.cur.width d none = n2 at e2 w1 w2 w3 w4 w5
  -- the early state
  have uE : nE.cur = ns.cur.map (Lab.shift (n0.count + 1) n0.cursor) := by
    rw [wE.cur]; simp [embCur, hst, u1', c1', k1']
  have cE : nE.count = n0.count + ns.count + 1 := by rw [wE.count, c1']; omega
  have kE : nE.cursor = ns.cursor + n0.cursor := by rw [wE.cursor, k1']
  have mE : nE.marks = n0.marks ++ [⟨n0.frame, n0.cur.width, true⟩] ++ ns.marks.map (Mark.embed n1') := by
    rw [wE.marks, m1', m1]
  have tE : plainStack nE.stack = (n0.count, d, n0.cur) :: plainStack n0.stack := by
    obtain ⟨st0, p1, p2⟩ := wE.stack
    rw [p2, hst, embStack, List.nil_append, p1, t1']
  obtain ⟨x, st, hstE, hx1, hx2, hstp⟩ : ∃ x st, nE.stack = (x, n0.cur) :: st ∧ x.id = n0.count ∧
      x.data = d ∧ plainStack st = plainStack n0.stack := by
    cases h : nE.stack with
    | nil => rw [h] at tE; simp [plainStack] at tE
    | cons p st =>
      obtain ⟨x, l⟩ := p
      rw [h] at tE
      simp only [plainStack, List.map_cons, List.cons.injEq, Prod.mk.injEq] at tE
      obtain ⟨⟨h1, h2, rfl⟩, h3⟩ := tE
      exact ⟨x, st, rfl, h1, h2, h3⟩
  have e2' : nE.step fl .close = some ({ nE with
      cur := n0.cur ++ Forest.single x nE.cur, stack := Nest.growParent x.span st,
      cursor := x.span.stop }, .ok .unit) := by
    simp only [Nest.step, hstE]
  generalize hn2' : ({ nE with
      cur := n0.cur ++ Forest.single x nE.cur, stack := Nest.growParent x.span st,
      cursor := x.span.stop } : Nest α) = n2' at e2'
  -- the whole runs
  have runL : Nest.init.run fl (decideLate n0.marks.length d pre sub []) = some (n2, os0 ++
        .ok (.handle n0.marks.length) :: (oss.map (Except.map (Out.shift n0.count (n0.marks.length + 1))) ++
          [.ok (.id (n0.count + ns.count))])) := by
    unfold decideLate
    rw [Nest.run_append, hp]
    simp only [Nest.run_step_cons _ e1, Nest.run_append, eL, Nest.run_only, e2, Option.map_some]
  have runE1 : Nest.init.run fl (pre ++ .checkpoint :: .open d :: sub.map (Op.shift (n0.marks.length + 1))) =
      some (nE, os0 ++ .ok (.handle n0.marks.length) :: .ok (.id n0.count) ::
          (oss.map (Except.map (Out.shift (n0.count + 1) (n0.marks.length + 1))))) := by
    rw [Nest.run_append, hp]
    simp only [Nest.run_step_cons _ e1, Nest.run_step_cons _ e1', eE, Option.map_some]
  have runE : Nest.init.run fl (decideEarly n0.marks.length d pre sub []) = some (n2', os0 ++
        .ok (.handle n0.marks.length) :: .ok (.id n0.count) ::
          (oss.map (Except.map (Out.shift (n0.count + 1) (n0.marks.length + 1))) ++ [.ok .unit])) := by
    unfold decideEarly
    rw [Nest.run_append, hp]
    simp only [Nest.run_step_cons _ e1, Nest.run_step_cons _ e1', Nest.run_append, eE, Nest.run_only, e2', Option.map_some]
  have hsub' : ∀ op ∈ sub.map (Op.shift (n0.marks.length + 1)), op.cursorDriven = true := by
    intro op ho
    obtain ⟨op', h1, rfl⟩ := List.mem_map.1 ho
    have := hsub op' h1
    cases op' <;> simp_all [Op.shift, Op.cursorDriven]
  -- the invariants about spans
  have iL : SpanInv n2 := SpanInv.of_run runL (by
    intro op ho
    simp only [decideLate, List.mem_append, List.mem_cons, List.not_mem_nil, or_false] at ho
    rcases ho with ho | rfl | ho | rfl
    · exact hpre op ho
    · rfl
    · exact hsub' op ho
    · rfl) (.inl (by omega))
  have iE1 : SpanInv nE := SpanInv.of_run runE1 (by
    intro op ho
    simp only [List.mem_append, List.mem_cons] at ho
    rcases ho with ho | rfl | rfl | ho
    · exact hpre op ho
    · rfl
    · rfl
    · exact hsub' op ho) (.inl (by omega))
  have iE : SpanInv n2' := SpanInv.of_run runE (by
    intro op ho
    simp only [decideEarly, List.mem_append, List.mem_cons, List.not_mem_nil, or_false] at ho
    rcases ho with ho | rfl | rfl | ho | rfl
    · exact hpre op ho
    · rfl
    · rfl
    · exact hsub' op ho
    · rfl) (.inl (by rw [← hn2']; simp only; omega))
  refine ⟨n2, n2', runL, runE, ?_⟩
  -- the span of the wrapper
  have hspan : x.span = (if (ns.cur.map (Lab.shift n0.count n0.cursor)).isNil then Span.point nL.cursor
      else Nest.stretch (ns.cur.map (Lab.shift n0.count n0.cursor))) ∧ x.span.stop = nE.cursor := by
    obtain ⟨s, h1, h2, _⟩ := iE1
    rw [hstE] at h2
    obtain ⟨h3, _⟩ := h2
    refine ⟨?_, by rw [h3]⟩
    rw [h3]
    rw [map_isNil]
    cases hN : ns.cur.isNil with
    | true =>
      rw [uE] at h1
      cases hc : ns.cur with
      | cons => rw [hc] at hN; simp at hN
      | nil =>
        rw [hc] at h1
        simp only [Forest.map, Tiled] at h1
        simp only [if_true, Span.point, kL, ← kE, h1]
    | false =>
      have hne : nE.cur ≠ .nil := by
        intro e; rw [uE] at e
        have := map_isNil (Lab.shift (n0.count + 1) n0.cursor) ns.cur
        rw [e, hN] at this; simp at this
      have := h1.stretch hne
      rw [uE, stretch_shift _ _ hN] at this
      simp only [Bool.false_eq_true, if_false, stretch_shift _ _ hN]
      exact this.symm
  -- the ids
  obtain ⟨s0, rel0⟩ := hr0.rel
  obtain ⟨ss, rels⟩ := hrs.rel
  have id0 : ∀ i, i < n0.count → turn n0.count ns.count i = i := by
    intro i hi; simp [turn, hi]
  have hW : turn n0.count ns.count nL.count = n0.count := by
    rw [cL]; unfold turn
    rw [if_neg (by omega), if_neg (by omega), if_pos rfl]
  have hcur : n2'.cur = n2.cur.map (Lab.relab (turn n0.count ns.count)) := by
    rw [w1, ← hn2']
    simp only [map_app, Forest.map]
    rw [map_relab_fix (fun i hi => id0 i (rel0.tree.lt (List.mem_append_left _ hi))),
      map_relab_shift (fun i hi => rels.tree.lt (List.mem_append_left _ hi)), ← uE]
    rw [← hspan.1]
    simp only [Lab.relab, hW]
    have hxe : (⟨n0.count, d, x.span⟩ : Lab α) = x := by rw [← hx1, ← hx2]
    rw [hxe]
  have hcursor : n2'.cursor = n2.cursor := by
    rw [w3, ← hn2']; simp only [hspan.2]; omega
  have hplain : plainStack n2'.stack = plainStack n2.stack := by
    rw [w2, tL, ← hn2']; simp only [plainStack_growParent, hstp]
  have hstack : n2'.stack = n2.stack := by
    obtain ⟨s, a1, a2, _⟩ := iL
    obtain ⟨s', b1, b2, _⟩ := iE
    rw [hcur, Tiled.relab] at b1
    have hne : n2.cur ≠ .nil := by rw [w1]; cases n0.cur <;> simp
    have : s' = s := b1.start_unique a1 (fun e => absurd e hne)
    subst this
    rw [hcursor] at b2
    exact b2.unique a2 hplain
  have hfix := relStack_fix (ρ := turn n0.count ns.count) (st := n2.stack) (by
    intro i hi
    rw [stackIds_plain (w2.trans tL)] at hi
    exact id0 i (rel0.tree.lt (List.mem_append_right _ hi)))
  refine ⟨hcur, by rw [hstack, hfix.1], hcursor, ?_, ?_, ?_, ?_, hfix.2, ?_⟩
  · rw [w4, cL, ← hn2']; exact cE
  · obtain ⟨_, _, _, a3⟩ := iL
    obtain ⟨_, _, _, b3⟩ := iE
    rw [a3, b3, hcursor]
  · rw [w5, ← hn2']
    simp only [mE]
    split <;> simp [mL]
  · intro j hj
    rw [← m1] at mE mL
    have hE : n2'.marks = n1.marks ++ ns.marks.map (Mark.embed n1') := by
      rw [← hn2', ← mE]
    rcases hj with hj | hj
    · rw [hE, w5, List.getElem?_append_left (by rw [l1]; exact hj)]
      split
      · rw [mL, List.getElem?_append_left (by rw [l1]; exact hj)]
      · rw [mL, List.getElem?_map, List.getElem?_append_left (by rw [l1]; exact hj)]
        cases hm : n1.marks[j]? with
        | none => rfl
        | some m =>
          simp only [Option.map_some, Option.some.injEq]
          have hmem : m ∈ n1.marks := List.mem_of_getElem? hm
          obtain ⟨_, h2⟩ := r1.outer.marks m hmem
          rw [f1, u1] at h2
          split
          · rename_i hc
            rw [fL] at hc
            cases hl : m.live with
            | true => have := h2 hl hc.1; omega
            | false => cases m; simp_all
          · rfl
    · have e3 : n2'.marks[j]? = none := by
        rw [hE, List.getElem?_eq_none_iff]; simp [l1]; omega
      rw [e3, Eq.comm, List.getElem?_eq_none_iff, w5]
      split <;> simp [mL, l1] <;> omega
  · intro i hi
    rw [w4, cL] at hi
    unfold turn
    rw [if_neg (by omega), if_neg (by omega), if_neg (by omega)]

theorem run_prefix {a b : List (Op α)} {n : Nest α} {os : List (Except Err Out)}
    (h : Nest.init.run fl (a ++ b) = some (n, os)) : ∃ n0 os0, Nest.init.run fl a = some (n0, os0) := by
  rw [Nest.run_append] at h
  cases hp : Nest.init.run fl a with
  | none => rw [hp] at h; simp at h
  | some q => exact ⟨q.1, q.2, rfl⟩

theorem Built.of_nest {ops : List (Op α)} {n : Nest α} {os : List (Except Err Out)}
    (h : Nest.init.run fl ops = some (n, os)) (hst : n.stack = []) : ∃ t, Built fl ops t n.cur := by
  obtain ⟨S, eS, rS⟩ := (Rel.init false).run (g' := false) fl ops h (by simp)
  exact ⟨S.b.tree, n, os, h, built_iff.2 ⟨hst, rfl⟩, by rw [eS, rS.build, if_pos hst]⟩

end Syntree
