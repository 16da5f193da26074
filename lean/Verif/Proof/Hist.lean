import Verif.Proof.More
import Verif.Spec.History

/-! Invariants of the nested-list machine along a history. -/

namespace Syntree

variable {α : Type}

open Forest

theorem Nest.run_append {fl : Flavor} {n : Nest α} (ops ops' : List (Op α)) :
    n.run fl (ops ++ ops') = (match n.run fl ops with
      | none => none
      | some (n1, os) => match n1.run fl ops' with
        | none => none
        | some (n2, os') => some (n2, os ++ os')) := by
  induction ops generalizing n with
  | nil =>
    simp only [List.nil_append, Nest.run]
    cases n.run fl ops' <;> rfl
  | cons op ops ih =>
    simp only [List.cons_append, Nest.run]
    cases n.step fl op with
    | none => rfl
    | some r =>
      obtain ⟨n1, o⟩ := r
      simp only [ih]
      cases n1.run fl ops with
      | none => rfl
      | some r =>
        obtain ⟨n2, os⟩ := r
        simp only
        cases n2.run fl ops' <;> rfl

theorem Nest.run_single {fl : Flavor} {n : Nest α} (op : Op α) :
    n.run fl [op] = (n.step fl op).map fun r => (r.1, [r.2]) := by
  simp only [Nest.run]
  cases n.step fl op with
  | none => rfl
  | some r => rfl

theorem Nest.run_length {fl : Flavor} {n n' : Nest α} {ops : List (Op α)}
    {os : List (Except Err Out)} (h : n.run fl ops = some (n', os)) : os.length = ops.length := by
  induction ops generalizing n os with
  | nil => simp only [Nest.run, Option.some.injEq, Prod.mk.injEq] at h; rw [← h.2]; rfl
  | cons op ops ih =>
    simp only [Nest.run] at h
    cases h1 : n.step fl op with
    | none => rw [h1] at h; simp at h
    | some r =>
      obtain ⟨n1, o⟩ := r
      rw [h1] at h
      simp only at h
      cases h2 : n1.run fl ops with
      | none => rw [h2] at h; simp at h
      | some r2 =>
        obtain ⟨n2, os2⟩ := r2
        rw [h2] at h
        simp only [Option.some.injEq, Prod.mk.injEq] at h
        obtain ⟨rfl, rfl⟩ := h
        simp [ih h2]

/-- Induction along a history. -/
theorem Nest.run_induct {fl : Flavor} {n0 : Nest α}
    {P : List (Op α) → Nest α → List (Except Err Out) → Prop}
    (h0 : P [] n0 [])
    (hs : ∀ ops n os op n' o, n0.run fl ops = some (n, os) → P ops n os →
      n.step fl op = some (n', o) → P (ops ++ [op]) n' (os ++ [o]))
    (ops : List (Op α)) (n : Nest α) (os : List (Except Err Out))
    (h : n0.run fl ops = some (n, os)) : P ops n os := by
  have key : ∀ (post pre : List (Op α)) (n1 : Nest α) (os1 : List (Except Err Out)),
      n0.run fl pre = some (n1, os1) → P pre n1 os1 → ∀ n2 os2, n1.run fl post = some (n2, os2) →
      P (pre ++ post) n2 (os1 ++ os2) := by
    intro post
    induction post with
    | nil =>
      intro pre n1 os1 _ hp n2 os2 h
      simp only [Nest.run, Option.some.injEq, Prod.mk.injEq] at h
      obtain ⟨rfl, rfl⟩ := h
      simpa using hp
    | cons op post ih =>
      intro pre n1 os1 hpre hp n2 os2 h
      simp only [Nest.run] at h
      cases h1 : n1.step fl op with
      | none => rw [h1] at h; simp at h
      | some r =>
        obtain ⟨n3, o⟩ := r
        rw [h1] at h
        simp only at h
        cases h2 : n3.run fl post with
        | none => rw [h2] at h; simp at h
        | some r2 =>
          obtain ⟨n4, os4⟩ := r2
          rw [h2] at h
          simp only [Option.some.injEq, Prod.mk.injEq] at h
          obtain ⟨rfl, rfl⟩ := h
          have hrun : n0.run fl (pre ++ [op]) = some (n3, os1 ++ [o]) := by
            rw [Nest.run_append, hpre]
            simp only [Nest.run, h1]
          have := ih (pre ++ [op]) n3 (os1 ++ [o]) hrun (hs _ _ _ _ _ _ hpre hp h1) _ _ h2
          simpa using this
  have := key ops [] n0 [] rfl h0 n os h
  simpa using this

/-- Split a run. -/
theorem Nest.run_split {fl : Flavor} {n n' : Nest α} {ops ops' : List (Op α)}
    {os : List (Except Err Out)} (h : n.run fl (ops ++ ops') = some (n', os)) :
    ∃ n1 os1 os2, n.run fl ops = some (n1, os1) ∧ n1.run fl ops' = some (n', os2) ∧
      os = os1 ++ os2 := by
  rw [Nest.run_append] at h
  cases h1 : n.run fl ops with
  | none => rw [h1] at h; simp at h
  | some r =>
    obtain ⟨n1, os1⟩ := r
    rw [h1] at h
    simp only at h
    cases h2 : n1.run fl ops' with
    | none => rw [h2] at h; simp at h
    | some r2 =>
      obtain ⟨n2, os2⟩ := r2
      rw [h2] at h
      simp only [Option.some.injEq, Prod.mk.injEq] at h
      obtain ⟨rfl, rfl⟩ := h
      exact ⟨n1, os1, os2, rfl, h2, rfl⟩

theorem made_snoc {ops : List (Op α)} {os : List (Except Err Out)} (h : os.length = ops.length)
    (op : Op α) (o : Except Err Out) :
    made (ops ++ [op]) (os ++ [o]) = made ops os ++ if (idOf o).isSome then [op] else [] := by
  unfold made
  rw [List.zip_append h.symm, List.filterMap_append]
  cases h : idOf o <;> simp [h]

/-! ## What one call does to the nested list -/

/-- The outcomes of a call, one constructor per branch. -/
inductive Did (fl : Flavor) (n : Nest α) : Op α → Nest α → Except Err Out → Prop where
  | fail (op : Op α) (e : Err) : Did fl n op n (.error e)
  | lost (d : α) (len c : Nat) : fl.ik.lenIsEmpty len = false →
      fl.ik.checkedAddLen n.cursor len = some c → n.full fl = true →
      Did fl n (.token d len) { n with cursor := c, stop := c } (.error .overflow)
  | noHandle (op : Op α) : Did fl n op n (.ok .unit)
  | setCursor (i : Nat) : Did fl n (.setCursor i) { n with cursor := i } (.ok .unit)
  | mark : n.full fl = false →
      Did fl n .checkpoint { n with marks := n.marks ++ [⟨n.frame, n.cur.width, true⟩] }
        (.ok (.handle n.marks.length))
  | opened (op : Op α) (d : α) (sp : Span) : (op = .open d ∧ sp = Span.point n.cursor) ∨
      op = .openWith d sp → n.full fl = false → Did fl n op (n.addOpen d sp) (.ok (.id n.count))
  | emptyTok (op : Op α) (d : α) : ((∃ len, op = .token d len ∧ fl.ik.lenIsEmpty len = true) ∨
      op = .tokenEmpty d) → n.full fl = false →
      Did fl n op (n.addLeaf d (Span.point n.cursor)) (.ok (.id n.count))
  | tok (d : α) (len c : Nat) : fl.ik.lenIsEmpty len = false →
      fl.ik.checkedAddLen n.cursor len = some c → n.full fl = false →
      Did fl n (.token d len)
        (Nest.addLeaf { n with cursor := c, stop := c } d ⟨n.cursor, c⟩) (.ok (.id n.count))
  | tokWith (d : α) (sp : Span) : n.full fl = false →
      Did fl n (.tokenWith d sp) { n.addLeaf d sp with
        stack := Nest.growParent sp (n.addLeaf d sp).stack, cursor := sp.stop }
        (.ok (.id n.count))
  | closed (x : Lab α) (left : Forest (Lab α)) (st : Stack α) : n.stack = (x, left) :: st →
      Did fl n .close { n with
        cur := left ++ Forest.single x n.cur, stack := Nest.growParent x.span st,
        cursor := x.span.stop } (.ok .unit)
  | wrapped (op : Op α) (k : Nat) (d : α) (explicit : Option Span) (m : Mark) :
      ((op = .closeAt k d ∧ explicit = none) ∨ ∃ sp, op = .closeAtWith k d sp ∧
        explicit = some sp) → n.marks[k]? = some m → m.frame = n.frame → m.live = true →
      n.full fl = false → Did fl n op (n.wrap m.pos d explicit) (.ok (.id n.count))

theorem Nest.openWith_did {fl : Flavor} {n n' : Nest α} {op : Op α} {d : α} {sp : Span}
    {o : Except Err Out} (h : n.openWith fl d sp = (n', o))
    (hop : (op = .open d ∧ sp = Span.point n.cursor) ∨ op = .openWith d sp) :
    Did fl n op n' o := by
  unfold Nest.openWith at h
  cases hf : n.full fl with
  | true => rw [hf] at h; simp at h; obtain ⟨rfl, rfl⟩ := h; exact .fail _ _
  | false =>
    rw [hf] at h; simp at h; obtain ⟨rfl, rfl⟩ := h
    exact .opened _ _ _ hop hf

theorem Nest.closeAt_did {fl : Flavor} {n n' : Nest α} {op : Op α} {k : Nat} {d : α}
    {explicit : Option Span} {o : Except Err Out} (h : n.closeAt fl k d explicit = some (n', o))
    (hop : (op = .closeAt k d ∧ explicit = none) ∨ ∃ sp, op = .closeAtWith k d sp ∧
        explicit = some sp) : Did fl n op n' o := by
  unfold Nest.closeAt at h
  cases hm : n.marks[k]? with
  | none =>
    rw [hm] at h; simp only [Option.some.injEq, Prod.mk.injEq] at h
    obtain ⟨rfl, rfl⟩ := h; exact .noHandle _
  | some m =>
    rw [hm] at h
    simp only at h
    by_cases hfr : m.frame ≠ n.frame
    · rw [if_pos hfr] at h; simp only [Option.some.injEq, Prod.mk.injEq] at h
      obtain ⟨rfl, rfl⟩ := h; exact .fail _ _
    · rw [if_neg hfr] at h
      cases hf : n.full fl with
      | true =>
        rw [hf] at h; simp at h
        obtain ⟨rfl, rfl⟩ := h; exact .fail _ _
      | false =>
        rw [hf] at h
        cases hl : m.live with
        | false => rw [hl] at h; simp at h
        | true =>
          rw [hl] at h; simp at h
          obtain ⟨rfl, rfl⟩ := h
          exact .wrapped _ _ _ _ _ hop hm (Decidable.not_not.1 hfr) hl hf

theorem Nest.token_did {fl : Flavor} {n n' : Nest α} {d : α} {len : Nat}
    {o : Except Err Out} (h : n.token fl d len = (n', o)) : Did fl n (.token d len) n' o := by
  unfold Nest.token at h
  cases he : fl.ik.lenIsEmpty len with
  | true =>
    rw [he] at h
    cases hf : n.full fl with
    | true => rw [hf] at h; simp at h; obtain ⟨rfl, rfl⟩ := h; exact .fail _ _
    | false =>
      rw [hf] at h; simp at h; obtain ⟨rfl, rfl⟩ := h
      exact .emptyTok _ _ (.inl ⟨len, rfl, he⟩) hf
  | false =>
    rw [he] at h
    simp only [Bool.false_eq_true, if_false] at h
    cases ha : fl.ik.checkedAddLen n.cursor len with
    | none => rw [ha] at h; simp at h; obtain ⟨rfl, rfl⟩ := h; exact .fail _ _
    | some c =>
      rw [ha] at h
      cases hf : n.full fl with
      | true =>
        rw [hf] at h; simp at h; obtain ⟨rfl, rfl⟩ := h
        exact .lost d len c he ha hf
      | false =>
        rw [hf] at h; simp at h; obtain ⟨rfl, rfl⟩ := h
        exact .tok d len c he ha hf

theorem lenIsEmpty_zero (ik : IndexKind) : ik.lenIsEmpty 0 = true := by cases ik <;> rfl

theorem Nest.step_did {fl : Flavor} {n n' : Nest α} {op : Op α} {o : Except Err Out}
    (h : n.step fl op = some (n', o)) : Did fl n op n' o := by
  cases op with
  | «open» d =>
    simp only [Nest.step, Option.some.injEq] at h
    exact openWith_did h (.inl ⟨rfl, rfl⟩)
  | openWith d sp =>
    simp only [Nest.step, Option.some.injEq] at h
    exact openWith_did h (.inr rfl)
  | close =>
    simp only [Nest.step, Option.some.injEq] at h
    cases hs : n.stack with
    | nil => rw [hs] at h; simp at h; obtain ⟨rfl, rfl⟩ := h; exact .fail _ _
    | cons p st =>
      obtain ⟨x, left⟩ := p
      rw [hs] at h; simp at h; obtain ⟨rfl, rfl⟩ := h; exact .closed x left st hs
  | token d len =>
    simp only [Nest.step, Option.some.injEq] at h
    exact token_did h
  | tokenEmpty d =>
    simp only [Nest.step, Option.some.injEq, Nest.token, lenIsEmpty_zero, if_true] at h
    cases hf : n.full fl with
    | true => rw [hf] at h; simp at h; obtain ⟨rfl, rfl⟩ := h; exact .fail _ _
    | false =>
      rw [hf] at h; simp at h; obtain ⟨rfl, rfl⟩ := h
      exact .emptyTok _ _ (.inr rfl) hf
  | tokenWith d sp =>
    simp only [Nest.step, Option.some.injEq] at h
    cases hf : n.full fl with
    | true => rw [hf] at h; simp at h; obtain ⟨rfl, rfl⟩ := h; exact .fail _ _
    | false =>
      rw [hf] at h; simp at h; obtain ⟨rfl, rfl⟩ := h
      exact .tokWith _ _ hf
  | checkpoint =>
    simp only [Nest.step, Option.some.injEq] at h
    cases hf : n.full fl with
    | true => rw [hf] at h; simp at h; obtain ⟨rfl, rfl⟩ := h; exact .fail _ _
    | false =>
      rw [hf] at h
      simp only [Bool.false_eq_true, if_false, Prod.mk.injEq] at h
      obtain ⟨rfl, rfl⟩ := h; exact .mark hf
  | closeAt k d => exact closeAt_did (op := .closeAt k d) h (.inl ⟨rfl, rfl⟩)
  | closeAtWith k d sp => exact closeAt_did (op := .closeAtWith k d sp) h (.inr ⟨sp, rfl, rfl⟩)
  | setCursor i =>
    simp only [Nest.step, Option.some.injEq, Prod.mk.injEq] at h
    obtain ⟨rfl, rfl⟩ := h; exact .setCursor i

/-! ## Data -/

/-- All nodes of the machine: the finished ones and the open ones. -/
def Nest.labs (n : Nest α) : List (Lab α) :=
  n.cur.preorder ++ n.stack.flatMap fun p => p.1 :: p.2.preorder

theorem labs_endParent {stop : Nat} {st : Stack α} {y : Lab α}
    (h : y ∈ (Nest.endParent stop st).flatMap fun p => p.1 :: p.2.preorder) :
    ∃ x ∈ st.flatMap fun p => p.1 :: p.2.preorder, x.id = y.id ∧ x.data = y.data := by
  cases st with
  | nil => simp [Nest.endParent] at h
  | cons p st =>
    obtain ⟨x, l⟩ := p
    simp only [Nest.endParent, List.flatMap_cons, List.mem_append, List.mem_cons] at h
    rcases h with (rfl | h) | h
    · exact ⟨x, by simp, rfl, rfl⟩
    · exact ⟨y, by simp only [List.flatMap_cons, List.mem_append, List.mem_cons]; exact .inl (.inr h), rfl, rfl⟩
    · exact ⟨y, by simp only [List.flatMap_cons, List.mem_append]; exact .inr h, rfl, rfl⟩

theorem labs_growParent {sp : Span} {st : Stack α} {y : Lab α}
    (h : y ∈ (Nest.growParent sp st).flatMap fun p => p.1 :: p.2.preorder) :
    ∃ x ∈ st.flatMap fun p => p.1 :: p.2.preorder, x.id = y.id ∧ x.data = y.data := by
  cases st with
  | nil => simp [Nest.growParent] at h
  | cons p st =>
    obtain ⟨x, l⟩ := p
    simp only [Nest.growParent, List.flatMap_cons, List.mem_append, List.mem_cons] at h
    rcases h with (rfl | h) | h
    · exact ⟨x, by simp, rfl, rfl⟩
    · exact ⟨y, by simp only [List.flatMap_cons, List.mem_append, List.mem_cons]; exact .inl (.inr h), rfl, rfl⟩
    · exact ⟨y, by simp only [List.flatMap_cons, List.mem_append]; exact .inr h, rfl, rfl⟩


theorem mem_labs_cur {n : Nest α} {x : Lab α} (h : x ∈ n.cur.preorder) : x ∈ n.labs :=
  List.mem_append_left _ h

theorem mem_labs_stack {n : Nest α} {x : Lab α}
    (h : x ∈ n.stack.flatMap fun p => p.1 :: p.2.preorder) : x ∈ n.labs :=
  List.mem_append_right _ h

theorem labs_addLeaf {n : Nest α} {d : α} {sp : Span} {y : Lab α}
    (hy : y ∈ (n.addLeaf d sp).labs) :
    (∃ x ∈ n.labs, x.id = y.id ∧ x.data = y.data) ∨ (y.id = n.count ∧ y.data = d) := by
  simp only [Nest.addLeaf, Nest.labs, List.mem_append, preorder_append, preorder_cons,
    preorder_nil, List.append_nil, List.mem_singleton] at hy
  rcases hy with (hy | rfl) | hy
  · exact .inl ⟨y, mem_labs_cur hy, rfl, rfl⟩
  · exact .inr ⟨rfl, rfl⟩
  · obtain ⟨x, hx, e⟩ := labs_endParent hy
    exact .inl ⟨x, mem_labs_stack hx, e⟩

theorem Did.labs {fl : Flavor} {n n' : Nest α} {op : Op α} {o : Except Err Out}
    (h : Did fl n op n' o) {y : Lab α} (hy : y ∈ n'.labs) :
    (∃ x ∈ n.labs, x.id = y.id ∧ x.data = y.data) ∨
      (o = .ok (.id n.count) ∧ y.id = n.count ∧ op.data = some y.data) := by
  cases h with
  | fail _ _ => exact .inl ⟨y, hy, rfl, rfl⟩
  | lost _ _ _ _ _ _ => exact .inl ⟨y, hy, rfl, rfl⟩
  | noHandle _ => exact .inl ⟨y, hy, rfl, rfl⟩
  | setCursor _ => exact .inl ⟨y, hy, rfl, rfl⟩
  | mark _ => exact .inl ⟨y, hy, rfl, rfl⟩
  | opened _ d sp hop _ =>
    simp only [Nest.addOpen, Nest.labs, List.mem_append, preorder_nil, List.not_mem_nil, false_or,
      List.flatMap_cons, List.mem_cons] at hy
    rcases hy with (rfl | hy) | hy
    · right; refine ⟨rfl, rfl, ?_⟩
      rcases hop with ⟨rfl, _⟩ | rfl <;> rfl
    · exact .inl ⟨y, mem_labs_cur hy, rfl, rfl⟩
    · obtain ⟨x, hx, e⟩ := labs_endParent hy
      exact .inl ⟨x, mem_labs_stack hx, e⟩
  | emptyTok _ d hop _ =>
    rcases labs_addLeaf hy with h | ⟨h1, h2⟩
    · exact .inl h
    · right; refine ⟨rfl, h1, ?_⟩
      rcases hop with ⟨_, rfl, _⟩ | rfl <;> simp [Op.data, h2]
  | tok d len c _ _ _ =>
    rcases labs_addLeaf hy with h | ⟨h1, h2⟩
    · exact .inl h
    · right; exact ⟨rfl, h1, by simp [Op.data, h2]⟩
  | tokWith d sp _ =>
    simp only [Nest.labs, List.mem_append] at hy
    have key : ∃ x ∈ (n.addLeaf d sp).labs, x.id = y.id ∧ x.data = y.data := by
      rcases hy with hy | hy
      · exact ⟨y, mem_labs_cur hy, rfl, rfl⟩
      · obtain ⟨x, hx, e⟩ := labs_growParent hy
        exact ⟨x, mem_labs_stack hx, e⟩
    obtain ⟨x, hx, e1, e2⟩ := key
    rcases labs_addLeaf hx with ⟨z, hz, e3, e4⟩ | ⟨h1, h2⟩
    · exact .inl ⟨z, hz, e3.trans e1, e4.trans e2⟩
    · right; exact ⟨rfl, e1 ▸ h1, by simp [Op.data, ← e2, h2]⟩
  | closed x left st hs =>
    left
    simp only [Nest.labs, List.mem_append, preorder_append, preorder_cons, preorder_nil,
      List.append_nil, List.mem_cons] at hy
    have hst : ∀ z, (z = x ∨ z ∈ left.preorder ∨
        z ∈ st.flatMap fun p => p.1 :: p.2.preorder) → z ∈ n.labs := by
      intro z hz
      refine mem_labs_stack ?_
      rw [hs]
      simp only [List.flatMap_cons, List.mem_append, List.mem_cons]
      rcases hz with h | h | h
      · exact .inl (.inl h)
      · exact .inl (.inr h)
      · exact .inr h
    rcases hy with (hy | rfl | hy) | hy
    · exact ⟨y, hst y (.inr (.inl hy)), rfl, rfl⟩
    · exact ⟨y, hst y (.inl rfl), rfl, rfl⟩
    · exact ⟨y, mem_labs_cur hy, rfl, rfl⟩
    · obtain ⟨z, hz, e⟩ := labs_growParent hy
      exact ⟨z, hst z (.inr (.inr hz)), e⟩
  | wrapped _ k d explicit m hop _ _ _ _ =>
    have hdata : op.data = some d := by
      rcases hop with ⟨rfl, _⟩ | ⟨_, rfl, _⟩ <;> rfl
    unfold Nest.wrap at hy
    split at hy
    · rcases labs_addLeaf hy with h | ⟨h1, h2⟩
      · exact .inl h
      · right; exact ⟨rfl, h1, by rw [hdata, h2]⟩
    · simp only [Nest.labs, List.mem_append, preorder_append, preorder_cons, preorder_nil,
        List.append_nil, List.mem_cons] at hy
      have hcur : ∀ z, z ∈ (n.cur.take m.pos).preorder ∨ z ∈ (n.cur.drop m.pos).preorder →
          z ∈ n.labs := by
        intro z hz
        refine mem_labs_cur ?_
        rw [← take_append_drop m.pos n.cur, preorder_append]
        exact List.mem_append.2 hz
      rcases hy with (hy | rfl | hy) | hy
      · exact .inl ⟨y, hcur y (.inl hy), rfl, rfl⟩
      · right; exact ⟨rfl, rfl, hdata⟩
      · exact .inl ⟨y, hcur y (.inr hy), rfl, rfl⟩
      · exact .inl ⟨y, mem_labs_stack hy, rfl, rfl⟩

theorem wrap_count (n : Nest α) (p : Nat) (d : α) (e : Option Span) :
    (n.wrap p d e).count = n.count + 1 := by
  unfold Nest.wrap; split <;> rfl

theorem Did.count {fl : Flavor} {n n' : Nest α} {op : Op α} {o : Except Err Out}
    (h : Did fl n op n' o) : (idOf o = none ∧ n'.count = n.count) ∨
      (idOf o = some n.count ∧ n'.count = n.count + 1) := by
  cases h with
  | fail _ _ => exact .inl ⟨rfl, rfl⟩
  | lost _ _ _ _ _ _ => exact .inl ⟨rfl, rfl⟩
  | noHandle _ => exact .inl ⟨rfl, rfl⟩
  | setCursor _ => exact .inl ⟨rfl, rfl⟩
  | mark _ => exact .inl ⟨rfl, rfl⟩
  | opened _ _ _ _ _ => exact .inr ⟨rfl, rfl⟩
  | emptyTok _ _ _ _ => exact .inr ⟨rfl, rfl⟩
  | tok _ _ _ _ _ _ => exact .inr ⟨rfl, rfl⟩
  | tokWith _ _ _ => exact .inr ⟨rfl, rfl⟩
  | closed _ _ _ _ => exact .inl ⟨rfl, rfl⟩
  | wrapped _ _ _ _ _ _ _ _ _ _ => exact .inr ⟨rfl, wrap_count _ _ _ _⟩

/-- The log of created nodes. -/
structure LogInv (ops : List (Op α)) (n : Nest α) (os : List (Except Err Out)) : Prop where
  len : (made ops os).length = n.count
  ids : os.filterMap idOf = List.range n.count
  data : ∀ x ∈ n.labs, ∃ op, (made ops os)[x.id]? = some op ∧ op.data = some x.data

theorem LogInv.of_run {fl : Flavor} {ops : List (Op α)} {n : Nest α}
    {os : List (Except Err Out)} (h : Nest.init.run fl ops = some (n, os)) : LogInv ops n os := by
  refine Nest.run_induct (P := LogInv) ?_ ?_ ops n os h
  · exact ⟨rfl, rfl, by simp [Nest.labs, Nest.init]⟩
  · intro ops n os op n' o hrun hi hst
    have hd := Nest.step_did hst
    have hlen := Nest.run_length hrun
    rcases hd.count with ⟨h1, h2⟩ | ⟨h1, h2⟩
    · have hm : made (ops ++ [op]) (os ++ [o]) = made ops os := by
        rw [made_snoc hlen, h1]; simp
      refine ⟨by rw [hm, h2]; exact hi.len, ?_, ?_⟩
      · rw [List.filterMap_append, hi.ids, h2]; simp [h1]
      · intro y hy
        rw [hm]
        rcases hd.labs hy with ⟨x, hx, e1, e2⟩ | ⟨ho, _⟩
        · rw [← e1, ← e2]; exact hi.data x hx
        · rw [ho] at h1; simp [idOf] at h1
    · have hm : made (ops ++ [op]) (os ++ [o]) = made ops os ++ [op] := by
        rw [made_snoc hlen, h1]; simp
      refine ⟨by rw [hm, h2, List.length_append, hi.len]; rfl, ?_, ?_⟩
      · rw [List.filterMap_append, hi.ids, h2, List.range_succ]; simp [h1]
      · intro y hy
        rw [hm]
        rcases hd.labs hy with ⟨x, hx, e1, e2⟩ | ⟨_, e1, e2⟩
        · obtain ⟨op', h3, h4⟩ := hi.data x hx
          refine ⟨op', ?_, by rw [h4, e2]⟩
          rw [← e1, List.getElem?_append_left (List.getElem?_eq_some_iff.1 h3).1]; exact h3
        · refine ⟨op, ?_, e2⟩
          rw [e1, ← hi.len]; simp

theorem run_results {fl : Flavor} {ops : List (Op α)} {n : Nest α}
    {os : List (Except Err Out)} (h : Nest.init.run fl ops = some (n, os)) :
    (Sys.init.run fl ops).2 = os := by
  obtain ⟨s, e, _⟩ := (Rel.init false).run (g' := false) fl ops h (by simp)
  rw [e]

/-- What a built tree comes from. -/
theorem Built.parts {fl : Flavor} {ops : List (Op α)} {t : Tree α} {F : Forest (Lab α)}
    (h : Built fl ops t F) : ∃ n os, Nest.init.run fl ops = some (n, os) ∧ n.stack = [] ∧
      n.cur = F ∧ (Sys.init.run fl ops).2 = os ∧ (Sys.init.run fl ops).1.b.tree = t ∧
      t.len = n.count ∧ (Sys.init.run fl ops).1.b.cursor = n.cursor ∧ t.span = ⟨0, n.stop⟩ := by
  obtain ⟨n, os, h1, h2, h3⟩ := h
  obtain ⟨s, e, r⟩ := (Rel.init false).run (g' := false) fl ops h1 (by simp)
  rw [e] at h3 ⊢
  obtain ⟨hs, hc⟩ := built_iff.1 h2
  rw [r.build, if_pos hs] at h3
  simp only [Except.ok.injEq] at h3
  refine ⟨n, os, h1, hs, hc, rfl, h3, ?_, r.cursor, ?_⟩
  · rw [← h3]; exact r.tree.len
  · rw [← h3]; exact r.span

end Syntree
