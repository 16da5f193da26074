import Verif.Proof.Ckpt
import Verif.Spec.Spans

/-! Spans of trees that are built by the cursor only. -/

namespace Syntree

variable {α : Type} {fl : Flavor}

open Forest

/-- The elements of the nested list tile the text from `a` to `b`. -/
def Tiled : Nat → Forest (Lab α) → Nat → Prop
  | a, .nil, b => a = b
  | a, .cons x k r, b => x.span.start = a ∧ a ≤ x.span.stop ∧ (k ≠ .nil → Tiled a k x.span.stop) ∧
      Tiled x.span.stop r b

theorem Tiled.le {a b : Nat} {F : Forest (Lab α)} (h : Tiled a F b) : a ≤ b := by
  induction F generalizing a with
  | nil => exact Nat.le_of_eq h
  | cons x k r _ ih => exact Nat.le_trans h.2.1 (ih h.2.2.2)

theorem Tiled.append {a b c : Nat} {F G : Forest (Lab α)} (h : Tiled a F b) (h' : Tiled b G c) :
    Tiled a (F ++ G) c := by
  induction F generalizing a with
  | nil => simp only [Tiled] at h; subst h; exact h'
  | cons x k r _ ih => exact ⟨h.1, h.2.1, h.2.2.1, ih h.2.2.2⟩

theorem Tiled.split {a c : Nat} {F G : Forest (Lab α)} (h : Tiled a (F ++ G) c) :
    ∃ b, Tiled a F b ∧ Tiled b G c := by
  induction F generalizing a with
  | nil => exact ⟨a, rfl, h⟩
  | cons x k r _ ih =>
    obtain ⟨h1, h2, h3, h4⟩ := h
    obtain ⟨b, h5, h6⟩ := ih h4
    exact ⟨b, ⟨h1, h2, h3, h5⟩, h6⟩

theorem Tiled.leaf {x : Lab α} {a b : Nat} (h : x.span = ⟨a, b⟩) (hab : a ≤ b) :
    Tiled a (Forest.leaf x) b := by
  simp only [Tiled, h]
  exact ⟨trivial, hab, by simp, trivial⟩

theorem Tiled.single {x : Lab α} {k : Forest (Lab α)} {a b : Nat} (h : x.span = ⟨a, b⟩)
    (hk : Tiled a k b) : Tiled a (Forest.single x k) b := by
  simp only [Tiled, h]
  exact ⟨trivial, hk.le, fun _ => hk, trivial⟩

theorem head?_cons (x : Lab α) (k r : Forest (Lab α)) : (Forest.cons x k r).head? = some x := rfl

theorem last?_single (x : Lab α) (k : Forest (Lab α)) : (Forest.cons x k .nil).last? = some x := rfl

theorem last?_cons (x y : Lab α) (k k' r : Forest (Lab α)) :
    (Forest.cons x k (.cons y k' r)).last? = (Forest.cons y k' r).last? := by
  simp [Forest.last?, List.getLast?_cons_cons]

theorem Tiled.last {a b : Nat} {F : Forest (Lab α)} (h : Tiled a F b) {x : Lab α}
    (hx : F.last? = some x) : x.span.stop = b := by
  induction F generalizing a with
  | nil => simp [Forest.last?] at hx
  | cons y k r _ ih =>
    cases r with
    | nil =>
      rw [last?_single] at hx
      obtain rfl := Option.some.inj hx
      exact h.2.2.2
    | cons z k' r' =>
      rw [last?_cons] at hx
      exact ih h.2.2.2 hx

theorem last?_isSome {F : Forest (Lab α)} (h : F ≠ .nil) : ∃ x, F.last? = some x := by
  cases F with
  | nil => exact absurd rfl h
  | cons x k r =>
    cases hl : (Forest.cons x k r).last? with
    | none => simp [Forest.last?] at hl
    | some y => exact ⟨y, rfl⟩

theorem Tiled.stretch {a b : Nat} {F : Forest (Lab α)} (h : Tiled a F b) (hF : F ≠ .nil) :
    Nest.stretch F = ⟨a, b⟩ := by
  obtain ⟨y, hy⟩ := last?_isSome hF
  have := h.last hy
  unfold Nest.stretch
  rw [hy]
  cases F with
  | nil => exact absurd rfl hF
  | cons x k r =>
    rw [head?_cons]
    simp [h.1, this]

/-- The open nodes: every one of them starts where what is before it ends, and ends where the
current child ends. -/
def OkStack : Stack α → Nat → Nat → Prop
  | [], s, _ => s = 0
  | (x, left) :: st, s, e => x.span = ⟨s, e⟩ ∧ ∃ s', Tiled s' left s ∧ OkStack st s' s

theorem OkStack.endParent {st : Stack α} {s e e' : Nat} (h : OkStack st s e) :
    OkStack (Nest.endParent e' st) s e' := by
  cases st with
  | nil => exact h
  | cons p st =>
    obtain ⟨x, left⟩ := p
    obtain ⟨h1, h2⟩ := h
    exact ⟨by simp [h1], h2⟩

theorem OkStack.growParent {st : Stack α} {s s2 e : Nat} (h : OkStack st s s2) (h1 : s ≤ s2)
    (h2 : s2 ≤ e) : OkStack (Nest.growParent ⟨s2, e⟩ st) s e := by
  cases st with
  | nil => exact h
  | cons p st =>
    obtain ⟨x, left⟩ := p
    obtain ⟨h3, h4⟩ := h
    refine ⟨?_, h4⟩
    simp only [h3, Span.join, Span.mk.injEq]
    omega

/-- The invariant. -/
def SpanInv (n : Nest α) : Prop :=
  ∃ s, Tiled s n.cur n.cursor ∧ OkStack n.stack s n.cursor ∧ n.stop = n.cursor

theorem SpanInv.init : SpanInv (Nest.init : Nest α) := ⟨0, rfl, rfl, rfl⟩

/-- Adding a leaf from the cursor to `c`. -/
theorem SpanInv.addLeaf {n : Nest α} (h : SpanInv n) {c : Nat} (hc : n.cursor ≤ c) (d : α) :
    SpanInv (Nest.addLeaf { n with cursor := c, stop := c } d ⟨n.cursor, c⟩) := by
  obtain ⟨s, h1, h2, _⟩ := h
  exact ⟨s, h1.append (Tiled.leaf rfl hc), h2.endParent, rfl⟩

theorem SpanInv.addPoint {n : Nest α} (h : SpanInv n) (d : α) :
    SpanInv (n.addLeaf d (Span.point n.cursor)) := by
  obtain ⟨s, h1, h2, h3⟩ := h
  exact ⟨s, h1.append (Tiled.leaf rfl (Nat.le_refl _)), h2.endParent, h3⟩

/-- What an index addition gives. -/
theorem checkedAddLen_some {ik : IndexKind} {i len c : Nat} (he : ik.lenIsEmpty len = false)
    (h : ik.checkedAddLen i len = some c) : c = i + len := by
  cases ik with
  | bits w =>
    simp only [IndexKind.checkedAddLen] at h
    split at h
    · exact (Option.some.inj h).symm
    · simp at h
  | empty => simp [IndexKind.lenIsEmpty] at he

theorem drop_ne_nil {F : Forest (Lab α)} {p : Nat} (h : ¬ (F.drop p).isNil = true) :
    F.drop p ≠ .nil := by
  intro e; rw [e] at h; simp at h

theorem SpanInv.wrap {n : Nest α} (h : SpanInv n) (p : Nat) (d : α) :
    SpanInv (n.wrap p d none) := by
  unfold Nest.wrap
  split
  · exact h.addPoint d
  · rename_i hn
    obtain ⟨s, h1, h2, h3⟩ := h
    rw [← take_append_drop p n.cur] at h1
    obtain ⟨b, h4, h5⟩ := h1.split
    refine ⟨s, h4.append (Tiled.single ?_ h5), h2, h3⟩
    exact h5.stretch (drop_ne_nil hn)

/-- Every cursor driven call that does not lose a token keeps the invariant. -/
theorem SpanInv.did {n n' : Nest α} {op : Op α} {o : Except Err Out} (h : SpanInv n)
    (hd : Did fl n op n' o) (hop : op.cursorDriven = true)
    (hsp : n.full fl = false ∨ o ≠ .error .overflow) : SpanInv n' := by
  cases hd with
  | fail _ _ => exact h
  | lost d len c he ha hf =>
    rcases hsp with h1 | h1
    · rw [hf] at h1; simp at h1
    · exact absurd rfl h1
  | noHandle _ => exact h
  | setCursor _ => simp [Op.cursorDriven] at hop
  | mark _ => exact h
  | opened _ d sp hop' _ =>
    rcases hop' with ⟨_, rfl⟩ | rfl
    · obtain ⟨s, h1, h2, h3⟩ := h
      exact ⟨n.cursor, rfl, ⟨rfl, s, h1, h2.endParent⟩, h3⟩
    · simp [Op.cursorDriven] at hop
  | emptyTok _ d _ _ => exact h.addPoint d
  | tok d len c he ha _ =>
    have := checkedAddLen_some he ha
    exact h.addLeaf (by omega) d
  | tokWith d sp _ => simp [Op.cursorDriven] at hop
  | closed x left st hs =>
    obtain ⟨s, h1, h2, h3⟩ := h
    rw [hs] at h2
    obtain ⟨h4, s', h5, h6⟩ := h2
    refine ⟨s', ?_, ?_, ?_⟩
    · simp only [h4]
      exact h5.append (Tiled.single h4 h1)
    · simp only [h4]
      exact h6.growParent h5.le h1.le
    · simp only [h4, h3]
  | wrapped _ k d explicit m hop' _ _ _ _ =>
    rcases hop' with ⟨rfl, rfl⟩ | ⟨sp, rfl, rfl⟩
    · exact h.wrap _ d
    · simp [Op.cursorDriven] at hop

/-- No token is lost. -/
theorem Spare.step {ops : List (Op α)} {n n' n2 : Nest α} {op : Op α} {o : Except Err Out}
    {os2 : List (Except Err Out)} (hs : Spare fl n2.count (o :: os2))
    (hst : n.step fl op = some (n', o)) (h2 : n'.run fl ops = some (n2, os2)) :
    n.full fl = false ∨ o ≠ .error .overflow := by
  rcases hs with hs | hs
  · left
    have h1 := (Nest.step_did hst).count_le
    have h3 : n'.count ≤ n2.count := by
      revert h2
      clear hs hst h1
      induction ops generalizing n' os2 with
      | nil =>
        intro h
        simp only [Nest.run, Option.some.injEq, Prod.mk.injEq] at h
        rw [h.1]; exact Nat.le_refl _
      | cons op ops ih =>
        intro h
        simp only [Nest.run] at h
        cases hq : n'.step fl op with
        | none => rw [hq] at h; simp at h
        | some r =>
          obtain ⟨n3, o3⟩ := r
          rw [hq] at h
          simp only at h
          cases hr : n3.run fl ops with
          | none => rw [hr] at h; simp at h
          | some r2 =>
            obtain ⟨n4, os4⟩ := r2
            rw [hr] at h
            simp only [Option.some.injEq, Prod.mk.injEq] at h
            obtain ⟨rfl, rfl⟩ := h
            exact Nat.le_trans (Nest.step_did hq).count_le (ih hr)
    cases hf : n.full fl with
    | false => rfl
    | true => rw [full_iff] at hf; omega
  · right
    exact hs o (by simp)

/-- Induction along a history in which no token is lost. -/
theorem Spare.induct {n0 : Nest α} {P : List (Op α) → Nest α → List (Except Err Out) → Prop}
    (h0 : P [] n0 [])
    (hs : ∀ ops n os op n' o, op.cursorDriven = true → n0.run fl ops = some (n, os) → P ops n os →
      n.step fl op = some (n', o) → (n.full fl = false ∨ o ≠ .error .overflow) →
      P (ops ++ [op]) n' (os ++ [o]))
    (ops : List (Op α)) (n : Nest α) (os : List (Except Err Out))
    (h : n0.run fl ops = some (n, os)) (hc : ∀ op ∈ ops, op.cursorDriven = true)
    (hsp : Spare fl n.count os) : P ops n os := by
  have key : ∀ (post pre : List (Op α)) (n1 : Nest α) (os1 : List (Except Err Out)),
      n0.run fl pre = some (n1, os1) → P pre n1 os1 → (∀ op ∈ post, op.cursorDriven = true) →
      ∀ n2 os2, n1.run fl post = some (n2, os2) → Spare fl n2.count os2 →
      P (pre ++ post) n2 (os1 ++ os2) := by
    intro post
    induction post with
    | nil =>
      intro pre n1 os1 _ hp _ n2 os2 h _
      simp only [Nest.run, Option.some.injEq, Prod.mk.injEq] at h
      obtain ⟨rfl, rfl⟩ := h
      simpa using hp
    | cons op post ih =>
      intro pre n1 os1 hpre hp hcd n2 os2 h hsp
      simp only [Nest.run] at h
      cases h1 : n1.step fl op with
      | none => rw [h1] at h; simp at h
      | some r =>
        obtain ⟨n3, o⟩ := r
        rw [h1] at h
        simp only at h
        cases h2 : n3.run fl post with
        | none => rw [h2] at h; simp at h
        | some r2 =>
          obtain ⟨n4, os4⟩ := r2
          rw [h2] at h
          simp only [Option.some.injEq, Prod.mk.injEq] at h
          obtain ⟨rfl, rfl⟩ := h
          have hrun : n0.run fl (pre ++ [op]) = some (n3, os1 ++ [o]) := by
            rw [Nest.run_append, hpre]
            simp only [Nest.run, h1]
          have hsp' : Spare fl n4.count os4 := by
            rcases hsp with h | h
            · exact .inl h
            · exact .inr (fun o ho => h o (by simp [ho]))
          have := ih (pre ++ [op]) n3 (os1 ++ [o]) hrun
            (hs _ _ _ _ _ _ (hcd op (by simp)) hpre hp h1 (Spare.step hsp h1 h2))
            (fun op ho => hcd op (by simp [ho])) _ _ h2 hsp'
          simpa using this
  have := key ops [] n0 [] rfl h0 hc n os h hsp
  simpa using this

/-- Where the text of node `i` starts: the total length of the calls that made the nodes before. -/
def startOf (fl : Flavor) (calls : List (Op α)) (i : Nat) : Nat := textLen fl (calls.take i)

theorem startOf_append (fl : Flavor) (calls calls' : List (Op α)) {i : Nat} (h : i ≤ calls.length) :
    startOf fl (calls ++ calls') i = startOf fl calls i := by
  unfold startOf
  rw [List.take_append_of_le_length h]

theorem startOf_length (fl : Flavor) (calls : List (Op α)) :
    startOf fl calls calls.length = textLen fl calls := by
  unfold startOf; rw [List.take_length]

theorem textLen_append (fl : Flavor) (a b : List (Op α)) :
    textLen fl (a ++ b) = textLen fl a + textLen fl b := by
  simp [textLen]

/-- The finished nodes without children and the open nodes are where they should be. -/
structure LenInv (fl : Flavor) (ops : List (Op α)) (n : Nest α) (os : List (Except Err Out)) :
    Prop where
  span : SpanInv n
  cursor : n.cursor = textLen fl (made ops os)
  cur : ∀ x ∈ n.cur.leaves, x.id < n.count ∧
    x.span = ⟨startOf fl (made ops os) x.id, startOf fl (made ops os) (x.id + 1)⟩
  left : ∀ p ∈ n.stack, ∀ x ∈ p.2.leaves, x.id < n.count ∧
    x.span = ⟨startOf fl (made ops os) x.id, startOf fl (made ops os) (x.id + 1)⟩
  opened : ∀ p ∈ n.stack, p.1.id < n.count ∧ p.1.span.start = startOf fl (made ops os) p.1.id ∧
    startOf fl (made ops os) (p.1.id + 1) = startOf fl (made ops os) p.1.id

theorem leaves_append (F G : Forest (Lab α)) : (F ++ G).leaves = F.leaves ++ G.leaves := by
  induction F with
  | nil => rfl
  | cons x k r _ ih => cases k <;> simp [Forest.leaves, ih]

theorem leaves_single (x : Lab α) {k : Forest (Lab α)} (hk : k ≠ .nil) :
    (Forest.single x k).leaves = k.leaves := by
  cases k with
  | nil => exact absurd rfl hk
  | cons y k r => simp [Forest.leaves]

theorem leaves_leaf (x : Lab α) : (Forest.leaf x).leaves = [x] := rfl

theorem mem_endParent {stop : Nat} {st : Stack α} {p : Lab α × Forest (Lab α)}
    (h : p ∈ Nest.endParent stop st) :
    ∃ q ∈ st, q.2 = p.2 ∧ q.1.id = p.1.id ∧ q.1.span.start = p.1.span.start := by
  cases st with
  | nil => simp [Nest.endParent] at h
  | cons q st =>
    simp only [Nest.endParent, List.mem_cons] at h
    rcases h with rfl | h
    · exact ⟨q, by simp, rfl, rfl, rfl⟩
    · exact ⟨p, by simp [h], rfl, rfl, rfl⟩

theorem mem_growParent {s0 e0 s e : Nat} {st : Stack α} {p : Lab α × Forest (Lab α)}
    (hok : OkStack st s0 e0) (hle : s0 ≤ s)
    (h : p ∈ Nest.growParent ⟨s, e⟩ st) :
    ∃ q ∈ st, q.2 = p.2 ∧ q.1.id = p.1.id ∧ q.1.span.start = p.1.span.start := by
  cases st with
  | nil => simp [Nest.growParent] at h
  | cons q st =>
    obtain ⟨x, l⟩ := q
    simp only [Nest.growParent, List.mem_cons] at h
    rcases h with rfl | h
    · refine ⟨(x, l), by simp, rfl, rfl, ?_⟩
      simp only [hok.1, Span.join]; omega
    · exact ⟨p, by simp [h], rfl, rfl, rfl⟩

variable {ops : List (Op α)} {os : List (Except Err Out)} {n n' : Nest α}

/-- The facts of `LenInv` about finished nodes carry over to a longer list of calls. -/
theorem leafOk_mono {calls : List (Op α)} {op : Op α} {x : Lab α} {c c' : Nat}
    (hl : calls.length = c) (hc : c ≤ c')
    (h : x.id < c ∧ x.span = ⟨startOf fl calls x.id, startOf fl calls (x.id + 1)⟩) :
    x.id < c' ∧ x.span = ⟨startOf fl (calls ++ [op]) x.id, startOf fl (calls ++ [op]) (x.id + 1)⟩ := by
  obtain ⟨h1, h2⟩ := h
  refine ⟨by omega, ?_⟩
  rw [startOf_append _ _ _ (by omega), startOf_append _ _ _ (by omega)]; exact h2

theorem startOf_new (fl : Flavor) (calls : List (Op α)) (op : Op α) :
    startOf fl (calls ++ [op]) calls.length = textLen fl calls ∧
    startOf fl (calls ++ [op]) (calls.length + 1) = textLen fl calls + op.len fl := by
  constructor
  · rw [startOf_append _ _ _ (Nat.le_refl _), startOf_length]
  · have := startOf_length fl (calls ++ [op])
    rw [List.length_append] at this
    simp only [List.length_cons, List.length_nil, Nat.zero_add] at this
    rw [this, textLen_append]; simp [textLen]

/-- Appending a finished leaf. -/
theorem LenInv.leaf (h : LenInv fl ops n os) (hlog : LogInv ops n os) {op : Op α} {d : α} {c : Nat}
    {o : Except Err Out} (hm : made (ops ++ [op]) (os ++ [o]) = made ops os ++ [op])
    (hc : c = n.cursor + op.len fl) (hs : SpanInv n') (e1 : n'.cursor = c)
    (e2 : n'.cur = n.cur ++ Forest.leaf ⟨n.count, d, ⟨n.cursor, c⟩⟩)
    (e3 : ∃ stop, n'.stack = Nest.endParent stop n.stack) (e4 : n'.count = n.count + 1) :
    LenInv fl (ops ++ [op]) n' (os ++ [o]) := by
  have hlen := hlog.len
  have hnew := startOf_new fl (made ops os) op
  rw [hlen] at hnew
  obtain ⟨stop, e3⟩ := e3
  refine ⟨hs, ?_, ?_, ?_, ?_⟩
  · rw [hm, textLen_append, e1, hc, h.cursor]; simp [textLen]
  · intro x hx
    rw [e2, leaves_append, List.mem_append, leaves_leaf, List.mem_singleton] at hx
    rw [hm, e4]
    rcases hx with hx | rfl
    · exact leafOk_mono hlen (by omega) (h.cur x hx)
    · refine ⟨by simp, ?_⟩
      simp only
      rw [hnew.1, hnew.2, hc, h.cursor]
  · intro p hp x hx
    rw [e3] at hp
    obtain ⟨q, hq, e5, _⟩ := mem_endParent hp
    rw [hm, e4]
    exact leafOk_mono hlen (by omega) (h.left q hq x (e5 ▸ hx))
  · intro p hp
    rw [e3] at hp
    obtain ⟨q, hq, _, e6, e7⟩ := mem_endParent hp
    obtain ⟨h1, h2, h3⟩ := h.opened q hq
    rw [hm, e4, ← e6, ← e7]
    refine ⟨by omega, ?_, ?_⟩
    · rw [startOf_append _ _ _ (by omega)]; exact h2
    · rw [startOf_append _ _ _ (by omega), startOf_append _ _ _ (by omega)]; exact h3

theorem LenInv.same (h : LenInv fl ops n os) {op : Op α} {o : Except Err Out}
    (hm : made (ops ++ [op]) (os ++ [o]) = made ops os) (hs : SpanInv n')
    (e1 : n'.cursor = n.cursor) (e2 : n'.cur = n.cur) (e3 : n'.stack = n.stack)
    (e4 : n'.count = n.count) : LenInv fl (ops ++ [op]) n' (os ++ [o]) := by
  refine ⟨hs, by rw [hm, e1]; exact h.cursor, ?_, ?_, ?_⟩
  · rw [hm, e2, e4]; exact h.cur
  · rw [hm, e3, e4]; exact h.left
  · rw [hm, e3, e4]; exact h.opened

theorem LenInv.did {op : Op α} {o : Except Err Out} (h : LenInv fl ops n os)
    (hlog : LogInv ops n os) (hlen : os.length = ops.length) (hop : op.cursorDriven = true)
    (hd : Did fl n op n' o) (hsp : n.full fl = false ∨ o ≠ .error .overflow) :
    LenInv fl (ops ++ [op]) n' (os ++ [o]) := by
  have hs' := h.span.did hd hop hsp
  have hmn : idOf o = none → made (ops ++ [op]) (os ++ [o]) = made ops os := by
    intro ho; rw [made_snoc hlen, ho]; simp
  have hms : ∀ i, idOf o = some i → made (ops ++ [op]) (os ++ [o]) = made ops os ++ [op] := by
    intro i ho; rw [made_snoc hlen, ho]; simp
  cases hd with
  | fail _ _ => exact h.same (hmn rfl) hs' rfl rfl rfl rfl
  | lost d len c he ha hf =>
    rcases hsp with h1 | h1
    · rw [hf] at h1; simp at h1
    · exact absurd rfl h1
  | noHandle _ => exact h.same (hmn rfl) hs' rfl rfl rfl rfl
  | setCursor _ => simp [Op.cursorDriven] at hop
  | mark _ => exact h.same (hmn rfl) hs' rfl rfl rfl rfl
  | opened _ d sp hop' _ =>
    rcases hop' with ⟨rfl, rfl⟩ | rfl
    · have hm := hms _ rfl
      have hl := hlog.len
      have hnew := startOf_new fl (made ops os) (.open d)
      rw [hl] at hnew
      refine ⟨hs', ?_, ?_, ?_, ?_⟩
      · rw [hm, textLen_append, Nest.addOpen, h.cursor]; simp [textLen, Op.len]
      · intro x hx; simp [Nest.addOpen, Forest.leaves] at hx
      · intro p hp x hx
        rw [hm]
        simp only [Nest.addOpen, List.mem_cons] at hp ⊢
        rcases hp with rfl | hp
        · exact leafOk_mono hl (by omega) (h.cur x hx)
        · obtain ⟨q, hq, e5, _⟩ := mem_endParent hp
          exact leafOk_mono hl (by omega) (h.left q hq x (e5 ▸ hx))
      · intro p hp
        rw [hm]
        simp only [Nest.addOpen, List.mem_cons] at hp ⊢
        rcases hp with rfl | hp
        · refine ⟨by simp, ?_, ?_⟩
          · simp only [Span.point]; rw [hnew.1, h.cursor]
          · simp only; rw [hnew.1, hnew.2]; simp [Op.len]
        · obtain ⟨q, hq, _, e6, e7⟩ := mem_endParent hp
          obtain ⟨h1, h2, h3⟩ := h.opened q hq
          rw [← e6, ← e7]
          refine ⟨by omega, ?_, ?_⟩
          · rw [startOf_append _ _ _ (by omega)]; exact h2
          · rw [startOf_append _ _ _ (by omega), startOf_append _ _ _ (by omega)]; exact h3
    · simp [Op.cursorDriven] at hop
  | emptyTok _ d hop' _ =>
    have hl0 : op.len fl = 0 := by
      rcases hop' with ⟨len, rfl, he⟩ | rfl
      · simp [Op.len, he]
      · rfl
    exact h.leaf hlog (hms _ rfl) (c := n.cursor) (by omega) hs' rfl rfl ⟨_, rfl⟩ rfl
  | tok d len c he ha _ =>
    have hc := checkedAddLen_some he ha
    refine h.leaf hlog (hms _ rfl) (c := c) ?_ hs' rfl rfl ⟨_, rfl⟩ rfl
    simp [Op.len, he, hc]
  | tokWith d sp _ => simp [Op.cursorDriven] at hop
  | closed x left st hs =>
    have hm := hmn rfl
    obtain ⟨s, h1, h2, h3⟩ := h.span
    rw [hs] at h2
    obtain ⟨h4, s', h5, h6⟩ := h2
    obtain ⟨hx1, hx2, hx3⟩ := h.opened (x, left) (by rw [hs]; simp)
    simp only at hx1 hx2 hx3
    refine ⟨hs', ?_, ?_, ?_, ?_⟩
    · rw [hm]; simp only [h4]; exact h.cursor
    · intro y hy
      simp only at hy ⊢
      rw [hm]
      rw [leaves_append, List.mem_append] at hy
      rcases hy with hy | hy
      · exact h.left (x, left) (by rw [hs]; simp) y hy
      · by_cases hk : n.cur = .nil
        · rw [hk] at hy h1
          rw [leaves_leaf, List.mem_singleton] at hy
          subst hy
          refine ⟨hx1, ?_⟩
          rw [hx3, ← hx2, h4]
          simp only [Tiled] at h1
          simp [h1]
        · rw [leaves_single _ hk] at hy
          exact h.cur y hy
    · intro p hp y hy
      simp only at hp ⊢
      rw [hm]
      rw [h4] at hp
      obtain ⟨q, hq, e5, _⟩ := mem_growParent h6 h5.le hp
      exact h.left q (by rw [hs]; simp [hq]) y (e5 ▸ hy)
    · intro p hp
      simp only at hp ⊢
      rw [hm]
      rw [h4] at hp
      obtain ⟨q, hq, _, e6, e7⟩ := mem_growParent h6 h5.le hp
      rw [← e6, ← e7]
      exact h.opened q (by rw [hs]; simp [hq])
  | wrapped _ k d explicit m hop' _ _ _ _ =>
    rcases hop' with ⟨rfl, rfl⟩ | ⟨sp, rfl, rfl⟩
    · have hm := hms _ rfl
      have hl := hlog.len
      unfold Nest.wrap at hs' ⊢
      by_cases hnil : (n.cur.drop m.pos).isNil = true
      · rw [if_pos hnil] at hs' ⊢
        exact h.leaf hlog hm (c := n.cursor) (by simp [Op.len]) hs' rfl rfl ⟨_, rfl⟩ rfl
      · rw [if_neg hnil] at hs' ⊢
        refine ⟨hs', ?_, ?_, ?_, ?_⟩
        · rw [hm, textLen_append]; simp only; rw [h.cursor]; simp [textLen, Op.len]
        · intro x hx
          simp only at hx ⊢
          rw [leaves_append, leaves_single _ (drop_ne_nil hnil), ← leaves_append,
            take_append_drop] at hx
          rw [hm]
          exact leafOk_mono hl (by omega) (h.cur x hx)
        · intro p hp x hx
          simp only at hp ⊢
          rw [hm]
          exact leafOk_mono hl (by omega) (h.left p hp x hx)
        · intro p hp
          simp only at hp ⊢
          rw [hm]
          obtain ⟨h1, h2, h3⟩ := h.opened p hp
          refine ⟨by omega, ?_, ?_⟩
          · rw [startOf_append _ _ _ (by omega)]; exact h2
          · rw [startOf_append _ _ _ (by omega), startOf_append _ _ _ (by omega)]; exact h3
    · simp [Op.cursorDriven] at hop

theorem LenInv.of_run (h : Nest.init.run fl ops = some (n, os))
    (hc : ∀ op ∈ ops, op.cursorDriven = true) (hsp : Spare fl n.count os) :
    LenInv fl ops n os := by
  refine Spare.induct (n0 := Nest.init) (fl := fl) (P := LenInv fl) ?_ ?_ ops n os h hc hsp
  · exact ⟨SpanInv.init, rfl, by simp [Nest.init, Forest.leaves], by simp [Nest.init],
      by simp [Nest.init]⟩
  · intro ops n os op n' o hop hrun hi hst hsp
    exact hi.did (LogInv.of_run hrun) (Nest.run_length hrun) hop (Nest.step_did hst) hsp

end Syntree
