import Verif.Spec.Context
import Verif.Proof.Ckpt

/-!
A history that runs on a new builder, run in the middle of another one (on the level of nested
lists).
-/

namespace Syntree

open Forest

variable {α : Type} {fl : Flavor}

theorem Forest.map_app {β γ : Type} (f : β → γ) (F G : Forest β) :
    (F ++ G).map f = F.map f ++ G.map f := by
  induction F with
  | nil => rfl
  | cons x k r _ ih => simp only [cons_append, Forest.map, ih]

theorem Forest.map_take {β γ : Type} (f : β → γ) (p : Nat) (F : Forest β) :
    (F.map f).take p = (F.take p).map f := by
  induction p generalizing F with
  | zero => cases F <;> rfl
  | succ p ih => cases F with
    | nil => rfl
    | cons x k r => simp only [Forest.map, Forest.take, ih]

theorem Forest.map_drop {β γ : Type} (f : β → γ) (p : Nat) (F : Forest β) :
    (F.map f).drop p = (F.drop p).map f := by
  induction p generalizing F with
  | zero => cases F <;> rfl
  | succ p ih => cases F with
    | nil => rfl
    | cons x k r => simp only [Forest.map, Forest.drop, ih]

theorem Forest.map_tops {β γ : Type} (f : β → γ) (F : Forest β) : (F.map f).tops = F.tops.map f := by
  induction F with
  | nil => rfl
  | cons x k r _ ih => simp only [Forest.map, tops_cons, List.map_cons, ih]

theorem Forest.map_isNil {β γ : Type} (f : β → γ) (F : Forest β) : (F.map f).isNil = F.isNil := by
  cases F <;> rfl

theorem stretch_shift (i c : Nat) {F : Forest (Lab α)} (h : F.isNil = false) :
    Nest.stretch (F.map (Lab.shift i c)) = (Nest.stretch F).shift c := by
  cases F with
  | nil => simp at h
  | cons x k r =>
    simp only [Nest.stretch, head?, last?, Forest.map_tops, Span.shift]
    cases hl : (cons x k r).tops.getLast? with
    | none => simp at hl
    | some y =>
      rw [List.getLast?_map, hl]
      simp [Lab.shift, Span.shift]

theorem join_shift (a b : Span) (c : Nat) : (a.shift c).join (b.shift c) = (a.join b).shift c := by
  simp only [Span.join, Span.shift, Span.mk.injEq]
  omega

/-- The open nodes of the inner history, inside of those of the outer one. -/
def embStack (c0 : Forest (Lab α)) (f : Lab α → Lab α) : Stack α → Stack α
  | [] => []
  | (x, l) :: st => (f x, if st.isEmpty then c0 ++ l.map f else l.map f) :: embStack c0 f st

/-- The level being built. -/
def embCur (c0 : Forest (Lab α)) (f : Lab α → Lab α) (s : Nest α) : Forest (Lab α) :=
  if s.stack.isEmpty then c0 ++ s.cur.map f else s.cur.map f

def Mark.embed (n0 : Nest α) (m : Mark) : Mark :=
  match m.frame with
  | none => ⟨n0.frame, m.pos + n0.cur.width, m.live⟩
  | some i => ⟨some (i + n0.count), m.pos, m.live⟩

/-- What is kept of the outer open nodes. -/
def plainStack (st : Stack α) : List (Nat × α × Forest (Lab α)) :=
  st.map fun p => (p.1.id, p.1.data, p.2)

/-- `n` is the state `s` of the inner history, seen from the state `n0` of the outer one. -/
structure Placed (n0 s n : Nest α) : Prop where
  count : n.count = s.count + n0.count
  cursor : n.cursor = s.cursor + n0.cursor
  marks : n.marks = n0.marks ++ s.marks.map (Mark.embed n0)
  cur : n.cur = embCur n0.cur (Lab.shift n0.count n0.cursor) s
  stack : ∃ st0, plainStack st0 = plainStack n0.stack ∧
    n.stack = embStack n0.cur (Lab.shift n0.count n0.cursor) s.stack ++ st0

theorem Placed.init (n0 : Nest α) : Placed n0 Nest.init n0 :=
  ⟨by simp [Nest.init], by simp [Nest.init], by simp [Nest.init],
    by simp [embCur, Nest.init, Forest.map], n0.stack, rfl, rfl⟩

/-- What is needed of the outer state. -/
structure OuterOk (n0 : Nest α) : Prop where
  frame : ∀ f, n0.frame = some f → f < n0.count
  marks : ∀ m ∈ n0.marks, (∀ f, m.frame = some f → f < n0.count) ∧
    (m.live = true → m.frame = n0.frame → m.pos ≤ n0.cur.width)

theorem Reach.outer {n : Nest α} (h : Reach fl n) : OuterOk n := by
  obtain ⟨s, r⟩ := h.rel
  refine ⟨fun f hf => r.frame_lt hf, ?_⟩
  intro m hm
  obtain ⟨k, hk, e⟩ := List.getElem_of_mem hm
  have hk' : k < s.handles.length := by rw [r.marks.len]; exact hk
  obtain ⟨cell, _, _, h1, _, h2⟩ := r.marks.cell k s.handles[k] m (List.getElem?_eq_getElem hk')
    (by rw [List.getElem?_eq_getElem hk, e])
  refine ⟨h2, fun hl hf => ?_⟩
  have h3 := h1 hl (n.cur.topIds ++ [n.count]) (by
    rw [hf]
    exact slots_self _ _)
  have h4 := (List.getElem?_eq_some_iff.1 h3).1
  simp only [List.length_append, List.length_cons, List.length_nil, topIds_length] at h4
  rw [width_eq]
  omega

theorem frame_of_plain {st st' : Stack α} (h : plainStack st = plainStack st') :
    st.head?.map (·.1.id) = st'.head?.map (·.1.id) := by
  have := congrArg (fun l => l.head?.map (·.1)) h
  simpa [plainStack, List.head?_map, Function.comp_def] using this

section
variable {n0 s n : Nest α}

theorem Placed.frame (h : Placed n0 s n) : n.frame = (match s.frame with
    | none => n0.frame
    | some i => some (i + n0.count)) := by
  obtain ⟨st0, h1, h2⟩ := h.stack
  unfold Nest.frame
  rw [h2]
  cases hs : s.stack with
  | nil => simpa [embStack] using frame_of_plain h1
  | cons p st => simp [embStack, Lab.shift]

theorem embed_frame (ho : OuterOk n0) (h : Placed n0 s n) (m : Mark) :
    (m.embed n0).frame = n.frame ↔ m.frame = s.frame := by
  rw [h.frame]
  unfold Mark.embed
  cases hm : m.frame <;> cases hs : s.frame <;> simp only [reduceCtorEq, iff_false, Option.some.injEq]
  · intro e
    have := ho.frame _ e
    omega
  · intro e
    have := ho.frame _ e.symm
    omega
  · omega

theorem embed_live (m : Mark) : (m.embed n0).live = m.live := by
  unfold Mark.embed; split <;> rfl

/-- Where the mark is. -/
def basePos (n0 s : Nest α) : Nat := if s.stack.isEmpty then n0.cur.width else 0

theorem embed_pos {m : Mark} (h : m.frame = s.frame) : (m.embed n0).pos = m.pos + basePos n0 s := by
  unfold Mark.embed basePos
  rw [h, Nest.frame]
  cases s.stack <;> simp

theorem frame_empty {s : Nest α} : s.frame = none ↔ s.stack = [] := by
  unfold Nest.frame; cases s.stack <;> simp

theorem embCur_drop (p : Nat) : (embCur n0.cur (Lab.shift n0.count n0.cursor) s).drop
    (p + basePos n0 s) = (s.cur.drop p).map (Lab.shift n0.count n0.cursor) := by
  unfold embCur basePos
  cases s.stack with
  | nil =>
    simp only [List.isEmpty_nil, if_true]
    rw [drop_append_ge _ _ _ (by omega), map_drop, Nat.add_sub_cancel]
  | cons q st => simp [map_drop]

theorem embCur_take (p : Nat) (X : Forest (Lab α)) : (embCur n0.cur (Lab.shift n0.count n0.cursor) s).take
      (p + basePos n0 s) ++ X.map (Lab.shift n0.count n0.cursor) =
    embCur n0.cur (Lab.shift n0.count n0.cursor) { s with cur := s.cur.take p ++ X } := by
  unfold embCur basePos
  cases s.stack with
  | nil =>
    simp only [List.isEmpty_nil, if_true]
    rw [take_append_ge _ _ _ (by omega), map_app, append_assoc, ← map_take, Nat.add_sub_cancel]
  | cons q st => simp [map_take, map_app]

theorem embCur_append (s : Nest α) (X : Forest (Lab α)) (st : Stack α) (hst : st.isEmpty = s.stack.isEmpty) :
    embCur n0.cur (Lab.shift n0.count n0.cursor) s ++ X.map (Lab.shift n0.count n0.cursor) =
    embCur n0.cur (Lab.shift n0.count n0.cursor) { s with cur := s.cur ++ X, stack := st } := by
  unfold embCur
  simp only [hst]
  split <;> simp [map_app, append_assoc]

theorem embStack_endParent (stop : Nat) (st st0 : Stack α) :
    ∃ st0', plainStack st0' = plainStack st0 ∧
      Nest.endParent (stop + n0.cursor) (embStack n0.cur (Lab.shift n0.count n0.cursor) st ++ st0) =
      embStack n0.cur (Lab.shift n0.count n0.cursor) (Nest.endParent stop st) ++ st0' := by
  cases st with
  | nil => exact ⟨_, endParent_bare _ _, rfl⟩
  | cons p st => exact ⟨st0, rfl, rfl⟩

theorem embStack_growParent (sp : Span) (st st0 : Stack α) :
    ∃ st0', plainStack st0' = plainStack st0 ∧
      Nest.growParent (sp.shift n0.cursor) (embStack n0.cur (Lab.shift n0.count n0.cursor) st ++ st0) =
      embStack n0.cur (Lab.shift n0.count n0.cursor) (Nest.growParent sp st) ++ st0' := by
  cases st with
  | nil =>
    refine ⟨_, ?_, rfl⟩
    cases st0 <;> rfl
  | cons p st =>
    refine ⟨st0, rfl, ?_⟩
    simp only [Nest.growParent, embStack, List.cons_append, Lab.shift, join_shift]

theorem endParent_isEmpty (c : Nat) (st : Stack α) : (Nest.endParent c st).isEmpty = st.isEmpty := by
  cases st <;> rfl

theorem growParent_isEmpty (c : Span) (st : Stack α) : (Nest.growParent c st).isEmpty = st.isEmpty := by
  cases st <;> rfl

theorem Placed.addLeaf (h : Placed n0 s n) (d : α) (sp : Span) :
    Placed n0 (s.addLeaf d sp) (n.addLeaf d (sp.shift n0.cursor)) := by
  obtain ⟨st0, h1, h2⟩ := h.stack
  refine ⟨?_, h.cursor, h.marks, ?_, ?_⟩
  · simp only [Nest.addLeaf, h.count]; omega
  · simp only [Nest.addLeaf, h.cur, h.count]
    have := embCur_append (n0 := n0) s (Forest.leaf ⟨s.count, d, sp⟩) (Nest.endParent sp.stop s.stack)
      (endParent_isEmpty _ _)
    exact this
  · simp only [Nest.addLeaf, h2]
    obtain ⟨st1, h3, h4⟩ := embStack_endParent (n0 := n0) sp.stop s.stack st0
    exact ⟨st1, h3.trans h1, h4⟩

theorem Placed.addOpen (h : Placed n0 s n) (d : α) (sp : Span) :
    Placed n0 (s.addOpen d sp) (n.addOpen d (sp.shift n0.cursor)) := by
  obtain ⟨st0, h1, h2⟩ := h.stack
  refine ⟨?_, h.cursor, h.marks, rfl, ?_⟩
  · simp only [Nest.addOpen, h.count]; omega
  · simp only [Nest.addOpen, h2, h.cur, h.count]
    obtain ⟨st1, h3, h4⟩ := embStack_endParent (n0 := n0) sp.stop s.stack st0
    refine ⟨st1, h3.trans h1, ?_⟩
    simp only [embStack, List.cons_append]
    rw [← h4, endParent_isEmpty]
    rfl

theorem Placed.setCursor (h : Placed n0 s n) (c stop stop' : Nat) :
    Placed n0 { s with cursor := c, stop := stop } { n with cursor := c + n0.cursor, stop := stop' } :=
  ⟨h.count, rfl, h.marks, h.cur, h.stack⟩

theorem Placed.closed (h : Placed n0 s n) {x : Lab α} {left : Forest (Lab α)} {st : Stack α}
    (hs : s.stack = (x, left) :: st) : ∃ n', n.step fl .close = some (n', .ok .unit) ∧
      Placed n0 { s with cur := left ++ Forest.single x s.cur, stack := Nest.growParent x.span st,
                         cursor := x.span.stop } n' := by
  obtain ⟨st0, h1, h2⟩ := h.stack
  rw [hs] at h2
  simp only [embStack, List.cons_append] at h2
  obtain ⟨st1, h3, h4⟩ := embStack_growParent (n0 := n0) x.span st st0
  simp only [Nest.step, h2]
  refine ⟨_, rfl, h.count, ?_, h.marks, ?_, st1, h3.trans h1, h4⟩
  · simp [Lab.shift, Span.shift]
  · have hc : n.cur = s.cur.map (Lab.shift n0.count n0.cursor) := by
      rw [h.cur]; simp [embCur, hs]
    simp only [embCur, growParent_isEmpty, hc]
    split <;> simp [map_app, append_assoc, Forest.map]

theorem Placed.mark (h : Placed n0 s n) :
    Placed n0 { s with marks := s.marks ++ [⟨s.frame, s.cur.width, true⟩] }
      { n with marks := n.marks ++ [⟨n.frame, n.cur.width, true⟩] } := by
  refine ⟨h.count, h.cursor, ?_, h.cur, h.stack⟩
  simp only [h.marks, List.map_append, List.append_assoc, List.map_cons, List.map_nil]
  congr 3
  have hw : n.cur.width = s.cur.width + basePos n0 s := by
    rw [h.cur]
    unfold embCur basePos
    split <;> simp [map_tops]
    omega
  have hp := embed_pos (n0 := n0) (s := s) (m := ⟨s.frame, s.cur.width, true⟩) rfl
  have hf := h.frame
  rw [hf, hw, ← hp]
  unfold Mark.embed
  cases s.frame <;> rfl

theorem Placed.wrap (ho : OuterOk n0) (h : Placed n0 s n) {m : Mark} (hm : m.frame = s.frame) (d : α) :
    Placed n0 (s.wrap m.pos d none) (n.wrap (m.embed n0).pos d none) := by
  rw [embed_pos hm]
  have hd : n.cur.drop (m.pos + basePos n0 s) =
      (s.cur.drop m.pos).map (Lab.shift n0.count n0.cursor) := by rw [h.cur, embCur_drop]
  unfold Nest.wrap
  rw [hd, map_isNil]
  cases hnil : (s.cur.drop m.pos).isNil with
  | true =>
    simp only [if_true]
    have := h.addLeaf d ((none : Option Span).getD (Span.point s.cursor))
    have e : ((none : Option Span).getD (Span.point s.cursor)).shift n0.cursor =
        (none : Option Span).getD (Span.point n.cursor) := by
      simp [Span.shift, Span.point, h.cursor]
    rw [e] at this
    exact this
  | false =>
    simp only [Bool.false_eq_true, if_false]
    refine ⟨?_, h.cursor, ?_, ?_, h.stack⟩
    · simp only [h.count]; omega
    · simp only [h.marks, List.map_append, List.map_map]
      congr 1
      · -- the marks of the outer history stay
        apply Eq.trans _ (List.map_id _)
        apply List.map_congr_left
        intro m' hm'
        obtain ⟨h1, h2⟩ := ho.marks m' hm'
        split
        · rename_i hc
          obtain ⟨hc1, hc2⟩ := hc
          rw [h.frame] at hc1
          cases hs : s.frame with
          | some i =>
            rw [hs] at hc1
            have := h1 _ hc1
            omega
          | none =>
            rw [hs] at hc1
            have hst := frame_empty.1 hs
            simp only [basePos, hst, List.isEmpty_nil, if_true] at hc2
            cases hl : m'.live with
            | true => have := h2 hl hc1; omega
            | false => cases m'; simp_all
        · rfl
      · apply List.map_congr_left
        intro m' _
        simp only [Function.comp_apply]
        have e1 := embed_frame ho h m'
        by_cases hf : m'.frame = s.frame
        · have e2 := embed_pos (n0 := n0) hf
          by_cases hp : m.pos < m'.pos
          · rw [if_pos ⟨e1.2 hf, by omega⟩, if_pos ⟨hf, hp⟩]
            unfold Mark.embed
            simp only
            split <;> rfl
          · rw [if_neg (fun hc => hp (by have := hc.2; omega)), if_neg (fun hc => hp hc.2)]
        · rw [if_neg (fun hc => hf (e1.1 hc.1)), if_neg (fun hc => hf hc.1)]
    · simp only [h.cur, h.count]
      have := embCur_take (n0 := n0) (s := s) m.pos (Forest.single ⟨s.count, d,
        (none : Option Span).getD (Nest.stretch (s.cur.drop m.pos))⟩ (s.cur.drop m.pos))
      simp only [Option.getD_none] at this ⊢
      rw [stretch_shift _ _ hnil]
      exact this

end

/-- The calls a history is made of: no explicit spans. -/
theorem Placed.step {n0 s s' n : Nest α} {op : Op α} {v : Out} (ho : OuterOk n0) (h : Placed n0 s n)
    (hc : op.cursorDriven = true) (hs : s.step fl op = some (s', .ok v))
    (hroom : n.count < 2 ^ fl.width - 1)
    (hix : ∀ w, fl.ik = .bits w → n.cursor + op.len fl < 2 ^ w) :
    ∃ n', n.step fl (op.shift n0.marks.length) =
        some (n', .ok (v.shift n0.count n0.marks.length)) ∧ Placed n0 s' n' := by
  have hnf : n.full fl = false := by
    have := not_full_iff (fl := fl) (n := n).2 hroom
    simpa using this
  have hpt : (Span.point s.cursor).shift n0.cursor = Span.point n.cursor := by
    simp [Span.shift, Span.point, h.cursor]
  have did := Nest.step_did hs
  have hcnt : Out.id n.count = (Out.id s.count).shift n0.count n0.marks.length := by
    simp [Out.shift, h.count]
  generalize ho' : (Except.ok v : Except Err Out) = o at did
  cases did with
  | fail _ _ => simp at ho'
  | lost _ _ _ _ _ _ => simp at ho'
  | noHandle _ =>
    obtain rfl := Except.ok.inj ho'
    -- a handle that was never handed out
    cases op with
    | «open» d => simp only [Nest.step, Nest.openWith, Option.some.injEq] at hs; split at hs <;> simp at hs
    | openWith _ _ => simp [Op.cursorDriven] at hc
    | close =>
      exfalso
      simp only [Nest.step, Option.some.injEq] at hs
      cases hst : s.stack with
      | nil => rw [hst] at hs; simp at hs
      | cons p st =>
        rw [hst] at hs
        simp only [Prod.mk.injEq, and_true] at hs
        have := congrArg (fun q => q.stack.length) hs
        simp only [hst, List.length_cons] at this
        cases st <;> simp [Nest.growParent] at this
    | token d len =>
      exfalso
      simp only [Nest.step, Option.some.injEq, Nest.token] at hs
      split at hs
      · split at hs <;> simp at hs
      · split at hs
        · simp at hs
        · split at hs <;> simp at hs
    | tokenEmpty d =>
      exfalso
      simp only [Nest.step, Option.some.injEq, Nest.token] at hs
      split at hs
      · split at hs <;> simp at hs
      · split at hs
        · simp at hs
        · split at hs <;> simp at hs
    | tokenWith _ _ => simp [Op.cursorDriven] at hc
    | checkpoint => simp only [Nest.step, Option.some.injEq] at hs; split at hs <;> simp at hs
    | closeAt k d =>
      simp only [Nest.step, Nest.closeAt] at hs
      cases hk : s.marks[k]? with
      | none =>
        refine ⟨n, ?_, h⟩
        have : n.marks[k + n0.marks.length]? = none := by
          rw [h.marks, List.getElem?_append_right (by omega)]
          simp [hk]
        simp only [Op.shift, Nest.step, Nest.closeAt, this, Out.shift]
      | some m =>
        rw [hk] at hs
        simp only at hs
        split at hs
        · simp at hs
        · split at hs
          · simp at hs
          · split at hs <;> simp at hs
    | closeAtWith _ _ _ => simp [Op.cursorDriven] at hc
    | setCursor _ => simp [Op.cursorDriven] at hc
  | setCursor _ => simp [Op.cursorDriven] at hc
  | mark _ =>
    obtain rfl := Except.ok.inj ho'
    refine ⟨_, ?_, h.mark⟩
    have hl : n.marks.length = s.marks.length + n0.marks.length := by
      rw [h.marks]; simp; omega
    simp [Op.shift, Nest.step, hnf, Out.shift, hl]
  | opened _ d sp hop _ =>
    obtain rfl := Except.ok.inj ho'
    rcases hop with ⟨rfl, rfl⟩ | rfl
    · refine ⟨_, ?_, h.addOpen d (Span.point s.cursor)⟩
      simp only [Op.shift, Nest.step, Nest.openWith, hnf, hpt, ← hcnt]; rfl
    · simp [Op.cursorDriven] at hc
  | emptyTok _ d hop _ =>
    obtain rfl := Except.ok.inj ho'
    refine ⟨_, ?_, h.addLeaf d (Span.point s.cursor)⟩
    rcases hop with ⟨len, rfl, hlen⟩ | rfl
    · simp only [Op.shift, Nest.step, Nest.token, hlen, if_true, hnf, hpt, ← hcnt]; rfl
    · have h0 : fl.ik.lenIsEmpty 0 = true := by cases fl.ik <;> rfl
      simp only [Op.shift, Nest.step, Nest.token, h0, if_true, hnf, hpt, ← hcnt]; rfl
  | tok d len c hlen hadd _ =>
    obtain rfl := Except.ok.inj ho'
    have hadd' : fl.ik.checkedAddLen n.cursor len = some (c + n0.cursor) := by
      have hop : Op.len fl (Op.token d len) = len := by simp [Op.len, hlen]
      rw [hop] at hix
      revert hadd hlen hix
      cases fl.ik with
      | empty => simp [IndexKind.lenIsEmpty]
      | bits w =>
        intro hlen hadd hix
        have hx := hix w rfl
        simp only [IndexKind.checkedAddLen] at hadd ⊢
        split at hadd
        · simp only [Option.some.injEq] at hadd
          rw [if_pos hx, h.cursor]
          simp only [Option.some.injEq]
          omega
        · simp at hadd
    have := (h.setCursor c c (c + n0.cursor)).addLeaf d ⟨s.cursor, c⟩
    refine ⟨_, ?_, this⟩
    simp only [Op.shift, Nest.step, Nest.token, hlen, Bool.false_eq_true, if_false, hadd', hnf, ← hcnt]
    simp only [Span.shift, h.cursor]
  | tokWith _ _ _ => simp [Op.cursorDriven] at hc
  | closed x left st hst =>
    obtain rfl := Except.ok.inj ho'
    exact h.closed hst
  | wrapped _ k d e m hop hk hf hl _ =>
    obtain rfl := Except.ok.inj ho'
    rcases hop with ⟨rfl, rfl⟩ | ⟨sp, rfl, _⟩
    · refine ⟨_, ?_, h.wrap ho hf d⟩
      have hk' : n.marks[k + n0.marks.length]? = some (m.embed n0) := by
        rw [h.marks, List.getElem?_append_right (by omega)]
        simp [hk]
      simp only [Op.shift, Nest.step, Nest.closeAt, hk', (embed_frame ho h m).2 hf, hnf, embed_live, hl,
        ← hcnt]
      simp
    · simp [Op.cursorDriven] at hc

/-- The cursor and the ends of the open nodes stay below the length of the text. -/
def BelowStack (A : Nat) (s : Nest α) : Prop := s.cursor ≤ A ∧ ∀ p ∈ s.stack, p.1.span.stop ≤ A

theorem endParent_below {A stop : Nat} {st : Stack α} (hs : stop ≤ A) (h : ∀ p ∈ st, p.1.span.stop ≤ A) :
    ∀ p ∈ Nest.endParent stop st, p.1.span.stop ≤ A := by
  cases st with
  | nil => exact h
  | cons q st =>
    intro p hp
    rcases List.mem_cons.1 hp with rfl | hp
    · exact hs
    · exact h p (List.mem_cons_of_mem _ hp)

theorem growParent_below {A : Nat} {sp : Span} {st : Stack α} (hs : sp.stop ≤ A)
    (h : ∀ p ∈ st, p.1.span.stop ≤ A) : ∀ p ∈ Nest.growParent sp st, p.1.span.stop ≤ A := by
  cases st with
  | nil => exact h
  | cons q st =>
    intro p hp
    rcases List.mem_cons.1 hp with rfl | hp
    · have := h q List.mem_cons_self
      simp only [Span.join]; omega
    · exact h p (List.mem_cons_of_mem _ hp)

theorem BelowStack.addLeaf {A : Nat} {s : Nest α} (h : BelowStack A s) (d : α) {sp : Span} (hs : sp.stop ≤ A) :
    BelowStack A (s.addLeaf d sp) := ⟨h.1, endParent_below hs h.2⟩

theorem BelowStack.step {A : Nat} {s s' : Nest α} {op : Op α} {o : Except Err Out} (h : BelowStack A s)
    (hc : op.cursorDriven = true) (hs : s.step fl op = some (s', o)) : BelowStack (A + op.len fl) s' := by
  have hm : BelowStack (A + op.len fl) s := ⟨Nat.le_trans h.1 (Nat.le_add_right _ _),
    fun p hp => Nat.le_trans (h.2 p hp) (Nat.le_add_right _ _)⟩
  have did := Nest.step_did hs
  have hadd : ∀ (d : α) (len c : Nat), op = .token d len → fl.ik.lenIsEmpty len = false →
      fl.ik.checkedAddLen s.cursor len = some c → c ≤ A + op.len fl := by
    intro d len c e hlen hadd
    subst e
    simp only [Op.len, hlen, Bool.false_eq_true, if_false]
    revert hadd hlen
    cases fl.ik with
    | empty => simp [IndexKind.lenIsEmpty]
    | bits w =>
      intro _ hadd
      simp only [IndexKind.checkedAddLen] at hadd
      split at hadd
      · have := Option.some.inj hadd
        have := h.1
        omega
      · simp at hadd
  cases did with
  | fail _ _ => exact hm
  | lost d len c h1 h2 _ => exact ⟨hadd d len c rfl h1 h2, hm.2⟩
  | noHandle _ => exact hm
  | setCursor _ => simp [Op.cursorDriven] at hc
  | mark _ => exact hm
  | opened _ d sp hop _ =>
    rcases hop with ⟨rfl, rfl⟩ | rfl
    · refine ⟨hm.1, ?_⟩
      intro p hp
      rcases List.mem_cons.1 hp with rfl | hp
      · exact hm.1
      · exact endParent_below hm.1 hm.2 p hp
    · simp [Op.cursorDriven] at hc
  | emptyTok _ d hop _ => exact hm.addLeaf d hm.1
  | tok d len c h1 h2 _ =>
    exact BelowStack.addLeaf (s := { s with cursor := c, stop := c }) ⟨hadd d len c rfl h1 h2, hm.2⟩ d
      (hadd d len c rfl h1 h2)
  | tokWith _ _ _ => simp [Op.cursorDriven] at hc
  | closed x left st hst =>
    have hx := hm.2 (x, left) (by rw [hst]; exact List.mem_cons_self)
    exact ⟨hx, growParent_below hx (fun p hp => hm.2 p (by rw [hst]; exact List.mem_cons_of_mem _ hp))⟩
  | wrapped _ k d e m hop hk hf hl _ =>
    rcases hop with ⟨rfl, rfl⟩ | ⟨sp, rfl, _⟩
    · unfold Nest.wrap
      split
      · exact hm.addLeaf d hm.1
      · exact hm
    · simp [Op.cursorDriven] at hc

theorem run_count_le {ops : List (Op α)} : ∀ {s s' : Nest α} {os : List (Except Err Out)},
    s.run fl ops = some (s', os) → s.count ≤ s'.count := by
  induction ops with
  | nil =>
    intro s s' os h
    simp only [Nest.run, Option.some.injEq, Prod.mk.injEq] at h
    rw [h.1]; exact Nat.le_refl _
  | cons op ops ih =>
    intro s s' os h
    simp only [Nest.run] at h
    cases hs : s.step fl op with
    | none => rw [hs] at h; simp at h
    | some q =>
      obtain ⟨s1, o⟩ := q
      rw [hs] at h
      simp only at h
      cases hr : s1.run fl ops with
      | none => rw [hr] at h; simp at h
      | some q =>
        obtain ⟨s2, os2⟩ := q
        rw [hr] at h
        simp only [Option.some.injEq, Prod.mk.injEq] at h
        rw [← h.1]
        exact Nat.le_trans (Nest.step_did hs).count_le (ih hr)

theorem Placed.run {n0 : Nest α} (ho : OuterOk n0) {ops : List (Op α)} :
    ∀ {s s' n : Nest α} {os : List (Except Err Out)} {A : Nat}, Placed n0 s n →
    (∀ op ∈ ops, op.cursorDriven = true) → s.run fl ops = some (s', os) →
    (∀ o ∈ os, ∃ v, o = .ok v) → s'.count + n0.count < 2 ^ fl.width - 1 → BelowStack A s →
    (∀ w, fl.ik = .bits w → n0.cursor + A + textLen fl ops < 2 ^ w) →
    ∃ n', n.run fl (ops.map (Op.shift n0.marks.length)) =
        some (n', os.map (Except.map (Out.shift n0.count n0.marks.length))) ∧ Placed n0 s' n' := by
  induction ops with
  | nil =>
    intro s s' n os A h _ hr _ _ _ _
    simp only [Nest.run, Option.some.injEq, Prod.mk.injEq] at hr
    obtain ⟨rfl, rfl⟩ := hr
    exact ⟨n, rfl, h⟩
  | cons op ops ih =>
    intro s s' n os A h hc hr hok hroom hb hix
    simp only [Nest.run] at hr
    cases hs : s.step fl op with
    | none => rw [hs] at hr; simp at hr
    | some q =>
      obtain ⟨s1, o⟩ := q
      rw [hs] at hr
      simp only at hr
      cases hr1 : s1.run fl ops with
      | none => rw [hr1] at hr; simp at hr
      | some q =>
        obtain ⟨s2, os2⟩ := q
        rw [hr1] at hr
        simp only [Option.some.injEq, Prod.mk.injEq] at hr
        obtain ⟨rfl, rfl⟩ := hr
        obtain ⟨v, rfl⟩ := hok o List.mem_cons_self
        have hlen : textLen fl (op :: ops) = op.len fl + textLen fl ops := by simp [textLen]
        have h1 := run_count_le hr1
        have h2 := (Nest.step_did hs).count_le
        obtain ⟨n1, e1, w1⟩ := h.step ho (hc op List.mem_cons_self) hs (by rw [h.count]; omega) (by
          intro w hw
          have := hix w hw
          have := hb.1
          rw [h.cursor]
          omega)
        obtain ⟨n2, e2, w2⟩ := ih (A := A + op.len fl) w1 (fun o ho => hc o (List.mem_cons_of_mem _ ho))
          hr1 (fun o ho => hok o (List.mem_cons_of_mem _ ho)) hroom
          (hb.step (hc op List.mem_cons_self) hs) (by
            intro w hw
            have := hix w hw
            omega)
        refine ⟨n2, ?_, w2⟩
        simp only [List.map_cons, Nest.run, e1, e2]
        rfl

/-- Closing nodes. -/
theorem closes_run (fl : Flavor) (m : Nat) (n : Nest α) : ∃ n' os,
    n.run fl (List.replicate m .close) = some (n', os) ∧ n'.stack.length = n.stack.length - m := by
  induction m generalizing n with
  | zero => exact ⟨n, [], rfl, by simp⟩
  | succ m ih =>
    cases hst : n.stack with
    | nil =>
      obtain ⟨n', os, h1, h2⟩ := ih n
      refine ⟨n', .error .closeError :: os, ?_, ?_⟩
      · simp only [List.replicate_succ, Nest.run, Nest.step, hst, h1]
      · rw [h2, hst]; simp
    | cons p st =>
      obtain ⟨x, left⟩ := p
      obtain ⟨n', os, h1, h2⟩ := ih { n with
        cur := left ++ Forest.single x n.cur
        stack := Nest.growParent x.span st
        cursor := x.span.stop }
      refine ⟨n', .ok .unit :: os, ?_, ?_⟩
      · simp only [List.replicate_succ, Nest.run, Nest.step, hst, h1]
      · rw [h2]
        cases st <;> simp [Nest.growParent]

end Syntree
