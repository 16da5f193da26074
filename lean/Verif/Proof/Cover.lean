import Verif.Proof.Spans

/-! Spans of histories with explicit spans. -/

namespace Syntree

variable {α : Type} {fl : Flavor}

open Forest

/-- `P x kids` holds for every element `x` with its children `kids`. -/
def Every (P : Lab α → Forest (Lab α) → Prop) : Forest (Lab α) → Prop
  | .nil => True
  | .cons x k r => P x k ∧ Every P k ∧ Every P r

theorem Every.append {P : Lab α → Forest (Lab α) → Prop} {F G : Forest (Lab α)} :
    Every P (F ++ G) ↔ Every P F ∧ Every P G := by
  induction F with
  | nil => simp [Every]
  | cons x k r _ ih => simp [Every, ih, and_assoc]

theorem Every.mono {P Q : Lab α → Forest (Lab α) → Prop} (h : ∀ x k, P x k → Q x k)
    {F : Forest (Lab α)} (hF : Every P F) : Every Q F := by
  induction F with
  | nil => trivial
  | cons x k r ihk ihr => exact ⟨h _ _ hF.1, ihk hF.2.1, ihr hF.2.2⟩

theorem Every.loc {P : Lab α → Forest (Lab α) → Prop} {F : Forest (Lab α)} (h : Every P F)
    {anc : List (Lab α)} {left kids right : Forest (Lab α)} {x : Lab α}
    (hl : Loc F anc left x kids right) : P x kids := by
  have : Every P (left ++ .cons x kids right) := by
    induction hl with
    | root e => rw [← e]; exact h
    | child hl' e ih => rw [← e]; exact (Every.append.1 ih).2.2.1
  exact (Every.append.1 this).2.1

/-- A finished node has the span it was given. -/
def Kept (calls : List (Op α)) (y : Lab α) (k : Forest (Lab α)) : Prop :=
  y.id < calls.length ∧ ∀ op, calls[y.id]? = some op →
    (∀ d s, op = .tokenWith d s → y.span = s) ∧
    (∀ j d s, op = .closeAtWith j d s → y.span = s) ∧
    (∀ d s, op = .openWith d s → y.span.start ≤ s.start ∧ (k = .nil → y.span = s)) ∧
    (op.isToken = true → k = .nil)

/-- A node being built. -/
def OpenKept (calls : List (Op α)) (y : Lab α) : Prop :=
  y.id < calls.length ∧ ∀ op, calls[y.id]? = some op →
    ((∃ d, op = .open d) ∨ ∃ d s, op = .openWith d s ∧ y.span.start ≤ s.start)

structure KeptInv (calls : List (Op α)) (n : Nest α) : Prop where
  cur : Every (Kept calls) n.cur
  left : ∀ p ∈ n.stack, Every (Kept calls) p.2
  opened : ∀ p ∈ n.stack, OpenKept calls p.1
  fresh : n.cur = .nil → ∀ x left st, n.stack = (x, left) :: st → ∀ d s,
    calls[x.id]? = some (.openWith d s) → x.span = s

theorem Kept.mono {calls : List (Op α)} {op : Op α} {y : Lab α} {k : Forest (Lab α)}
    (h : Kept calls y k) : Kept (calls ++ [op]) y k := by
  refine ⟨by rw [List.length_append]; exact Nat.lt_of_lt_of_le h.1 (by omega), ?_⟩
  intro op' ho
  rw [List.getElem?_append_left h.1] at ho
  exact h.2 op' ho

theorem OpenKept.mono {calls : List (Op α)} {op : Op α} {y : Lab α}
    (h : OpenKept calls y) : OpenKept (calls ++ [op]) y := by
  refine ⟨by rw [List.length_append]; exact Nat.lt_of_lt_of_le h.1 (by omega), ?_⟩
  intro op' ho
  rw [List.getElem?_append_left h.1] at ho
  exact h.2 op' ho

theorem KeptInv.mono {calls : List (Op α)} {op : Op α} {n : Nest α} (h : KeptInv calls n) :
    KeptInv (calls ++ [op]) n := by
  refine ⟨h.cur.mono (fun _ _ => Kept.mono), fun p hp => (h.left p hp).mono (fun _ _ => Kept.mono),
    fun p hp => (h.opened p hp).mono, ?_⟩
  intro e x left st hs d s hc
  rw [List.getElem?_append_left (h.opened (x, left) (by rw [hs]; simp)).1] at hc
  exact h.fresh e x left st hs d s hc

theorem mem_endParent' {stop : Nat} {st : Stack α} {p : Lab α × Forest (Lab α)}
    (h : p ∈ Nest.endParent stop st) :
    ∃ q ∈ st, q.2 = p.2 ∧ q.1.id = p.1.id ∧ p.1.span.start ≤ q.1.span.start := by
  obtain ⟨q, h1, h2, h3, h4⟩ := mem_endParent h
  exact ⟨q, h1, h2, h3, by omega⟩

theorem mem_growParent' {sp : Span} {st : Stack α} {p : Lab α × Forest (Lab α)}
    (h : p ∈ Nest.growParent sp st) :
    ∃ q ∈ st, q.2 = p.2 ∧ q.1.id = p.1.id ∧ p.1.span.start ≤ q.1.span.start := by
  cases st with
  | nil => simp [Nest.growParent] at h
  | cons q st =>
    simp only [Nest.growParent, List.mem_cons] at h
    rcases h with rfl | h
    · exact ⟨q, by simp, rfl, rfl, by simp only [Span.join]; omega⟩
    · exact ⟨p, by simp [h], rfl, rfl, Nat.le_refl _⟩

theorem OpenKept.less {calls : List (Op α)} {x y : Lab α} (h : OpenKept calls x) (e : x.id = y.id)
    (hle : y.span.start ≤ x.span.start) : OpenKept calls y := by
  refine ⟨e ▸ h.1, ?_⟩
  intro op ho
  rw [← e] at ho
  rcases h.2 op ho with h1 | ⟨d, s, h2, h3⟩
  · exact .inl h1
  · exact .inr ⟨d, s, h2, by omega⟩

/-- The stack after an update of the innermost open node. -/
theorem KeptInv.stack {calls : List (Op α)} {st st' : Stack α}
    (hu : ∀ p ∈ st', ∃ q ∈ st, q.2 = p.2 ∧ q.1.id = p.1.id ∧ p.1.span.start ≤ q.1.span.start)
    (h1 : ∀ p ∈ st, Every (Kept calls) p.2) (h2 : ∀ p ∈ st, OpenKept calls p.1) :
    (∀ p ∈ st', Every (Kept calls) p.2) ∧ ∀ p ∈ st', OpenKept calls p.1 := by
  constructor
  · intro p hp
    obtain ⟨q, hq, e, _⟩ := hu p hp
    rw [← e]; exact h1 q hq
  · intro p hp
    obtain ⟨q, hq, _, e, hle⟩ := hu p hp
    exact (h2 q hq).less e hle

theorem append_ne_nil (F : Forest (Lab α)) (x : Lab α) (k r : Forest (Lab α)) :
    F ++ .cons x k r ≠ .nil := by cases F <;> simp

/-- Appending a leaf for the call `op`. -/
theorem KeptInv.leaf {calls : List (Op α)} {n n' : Nest α} {op : Op α} (h : KeptInv calls n)
    {d : α} {sp : Span} (hlen : calls.length = n.count)
    (hcur : n'.cur = n.cur ++ Forest.leaf ⟨n.count, d, sp⟩)
    (hst : ∀ p ∈ n'.stack, ∃ q ∈ n.stack, q.2 = p.2 ∧ q.1.id = p.1.id ∧
      p.1.span.start ≤ q.1.span.start)
    (h1 : ∀ d s, op = .tokenWith d s → sp = s) (h2 : ∀ j d s, op = .closeAtWith j d s → sp = s)
    (h3 : ∀ d s, op ≠ .openWith d s) : KeptInv (calls ++ [op]) n' := by
  have hm : KeptInv (calls ++ [op]) n := h.mono
  obtain ⟨g1, g2⟩ := KeptInv.stack hst hm.left hm.opened
  refine ⟨?_, g1, g2, ?_⟩
  · rw [hcur, Every.append]
    refine ⟨hm.cur, ⟨?_, trivial, trivial⟩⟩
    refine ⟨by simp [hlen], ?_⟩
    intro op' ho
    simp only [← hlen] at ho
    simp at ho
    subst ho
    exact ⟨h1, h2, fun d s e => absurd e (h3 d s), fun _ => rfl⟩
  · intro e
    rw [hcur] at e
    exact absurd e (append_ne_nil _ _ _ _)

theorem KeptInv.did {calls : List (Op α)} {n n' : Nest α} {op : Op α} {o : Except Err Out}
    (h : KeptInv calls n) (hlen : calls.length = n.count) (hd : Did fl n op n' o) :
    KeptInv (if (idOf o).isSome then calls ++ [op] else calls) n' := by
  cases hd with
  | fail _ _ => exact h
  | lost d len c he ha hf => exact ⟨h.cur, h.left, h.opened, h.fresh⟩
  | noHandle _ => exact h
  | setCursor _ => exact ⟨h.cur, h.left, h.opened, h.fresh⟩
  | mark _ => exact ⟨h.cur, h.left, h.opened, h.fresh⟩
  | opened _ d sp hop _ =>
    have hm : KeptInv (calls ++ [op]) n := h.mono
    show KeptInv (calls ++ [op]) _
    obtain ⟨g1, g2⟩ := KeptInv.stack (st' := Nest.endParent sp.stop n.stack)
      (fun p hp => mem_endParent' hp) hm.left hm.opened
    have hget : (calls ++ [op])[n.count]? = some op := by rw [← hlen]; simp
    refine ⟨trivial, ?_, ?_, ?_⟩
    · intro p hp
      simp only [Nest.addOpen, List.mem_cons] at hp
      rcases hp with rfl | hp
      · exact hm.cur
      · exact g1 p hp
    · intro p hp
      simp only [Nest.addOpen, List.mem_cons] at hp
      rcases hp with rfl | hp
      · refine ⟨by simp [hlen], ?_⟩
        intro op' ho
        rw [hget] at ho
        obtain rfl := Option.some.inj ho
        rcases hop with ⟨rfl, _⟩ | rfl
        · exact .inl ⟨d, rfl⟩
        · exact .inr ⟨d, sp, rfl, Nat.le_refl _⟩
      · exact g2 p hp
    · intro _ x left st hs d' s hc
      simp only [Nest.addOpen, List.cons.injEq, Prod.mk.injEq] at hs
      obtain ⟨⟨rfl, _⟩, _⟩ := hs
      rw [hget] at hc
      rcases hop with ⟨rfl, _⟩ | rfl
      · simp at hc
      · simp only [Option.some.injEq, Op.openWith.injEq] at hc
        exact hc.2
  | emptyTok _ d hop _ =>
    refine h.leaf hlen rfl (fun p hp => mem_endParent' hp) ?_ ?_ ?_ <;>
      rcases hop with ⟨_, rfl, _⟩ | rfl <;> simp
  | tok d len c _ _ _ =>
    refine h.leaf hlen rfl (fun p hp => mem_endParent' hp) ?_ ?_ ?_ <;> simp
  | tokWith d sp _ =>
    refine h.leaf hlen rfl ?_ ?_ ?_ ?_
    · intro p hp
      obtain ⟨q, hq, e1, e2, e3⟩ := mem_growParent' hp
      obtain ⟨q', hq', e1', e2', e3'⟩ := mem_endParent' hq
      exact ⟨q', hq', e1'.trans e1, e2'.trans e2, by omega⟩
    · intro d' s e
      simp only [Op.tokenWith.injEq] at e
      exact e.2
    · simp
    · simp
  | closed x left st hs =>
    show KeptInv calls _
    have ho := h.opened (x, left) (by rw [hs]; simp)
    obtain ⟨g1, g2⟩ := KeptInv.stack (st := st) (st' := Nest.growParent x.span st)
      (fun p hp => mem_growParent' hp) (fun p hp => h.left p (by rw [hs]; simp [hp]))
      (fun p hp => h.opened p (by rw [hs]; simp [hp]))
    refine ⟨?_, g1, g2, fun e => absurd e (append_ne_nil _ _ _ _)⟩
    rw [Every.append]
    refine ⟨h.left (x, left) (by rw [hs]; simp), ⟨?_, h.cur, trivial⟩⟩
    refine ⟨ho.1, ?_⟩
    intro op hop
    rcases ho.2 op hop with ⟨d, rfl⟩ | ⟨d, s, rfl, hle⟩
    · simp [Op.isToken]
    · refine ⟨by simp, by simp, ?_, by simp [Op.isToken]⟩
      intro d' s' e
      simp only [Op.openWith.injEq] at e
      obtain ⟨rfl, rfl⟩ := e
      exact ⟨hle, fun hk => h.fresh hk x left st hs d s hop⟩
  | wrapped _ k d explicit m hop _ _ _ _ =>
    show KeptInv (calls ++ [op]) _
    have hex : ∀ j d' s, op = .closeAtWith j d' s → ∀ u, explicit.getD u = s := by
      intro j d' s e u
      rcases hop with ⟨e', _⟩ | ⟨sp, e', rfl⟩
      · rw [e'] at e; simp at e
      · rw [e'] at e
        simp only [Op.closeAtWith.injEq] at e
        simpa using e.2.2
    have hno : (∀ d s, op ≠ .tokenWith d s) ∧ ∀ d s, op ≠ .openWith d s := by
      rcases hop with ⟨rfl, _⟩ | ⟨sp, rfl, rfl⟩ <;> simp
    unfold Nest.wrap
    by_cases hnil : (n.cur.drop m.pos).isNil = true
    · rw [if_pos hnil]
      exact h.leaf hlen rfl (fun p hp => mem_endParent' hp) (fun d s e => absurd e (hno.1 d s))
        (fun j d s e => hex j d s e _) hno.2
    · rw [if_neg hnil]
      have hm : KeptInv (calls ++ [op]) n := h.mono
      refine ⟨?_, hm.left, hm.opened, fun e => absurd e (append_ne_nil _ _ _ _)⟩
      have hcur := hm.cur
      rw [← take_append_drop m.pos n.cur, Every.append] at hcur
      simp only
      rw [Every.append]
      refine ⟨hcur.1, ⟨?_, hcur.2, trivial⟩⟩
      refine ⟨by simp [hlen], ?_⟩
      intro op' ho
      simp only [← hlen] at ho
      simp at ho
      subst ho
      exact ⟨fun d s e => absurd e (hno.1 d s), fun j d s e => hex j d s e _,
        fun d s e => absurd e (hno.2 d s), fun e => by
          rcases hop with ⟨rfl, _⟩ | ⟨sp, rfl, rfl⟩ <;> simp [Op.isToken] at e⟩

theorem KeptInv.of_run {ops : List (Op α)} {n : Nest α} {os : List (Except Err Out)}
    (h : Nest.init.run fl ops = some (n, os)) : KeptInv (made ops os) n := by
  refine Nest.run_induct (P := fun ops n os => KeptInv (made ops os) n) ?_ ?_ ops n os h
  · exact ⟨trivial, by simp [Nest.init], by simp [Nest.init], by simp [Nest.init]⟩
  · intro ops n os op n' o hrun hi hst
    have := hi.did (LogInv.of_run hrun).len (Nest.step_did hst)
    rw [made_snoc (Nest.run_length hrun)]
    split at this <;> simp_all

/-! ## Explicit spans that move forward -/

/-- The elements lie between `a` and `b`, in order and nested. -/
def Within : Nat → Forest (Lab α) → Nat → Prop
  | a, .nil, b => a ≤ b
  | a, .cons x k r, b => a ≤ x.span.start ∧ Within x.span.start k x.span.stop ∧
      Within x.span.stop r b

theorem Within.le {a b : Nat} {F : Forest (Lab α)} (h : Within a F b) : a ≤ b := by
  induction F generalizing a b with
  | nil => exact h
  | cons x k r ihk ih => exact Nat.le_trans h.1 (Nat.le_trans (ihk h.2.1) (ih h.2.2))

theorem Within.mono {a b c : Nat} {F : Forest (Lab α)} (h : Within a F b) (hb : b ≤ c) :
    Within a F c := by
  induction F generalizing a b with
  | nil => exact Nat.le_trans h hb
  | cons x k r ihk ih => exact ⟨h.1, h.2.1, ih h.2.2 hb⟩

theorem Within.append {a b c : Nat} {F G : Forest (Lab α)} (h : Within a F b)
    (h' : Within b G c) : Within a (F ++ G) c := by
  induction F generalizing a with
  | nil =>
    cases G with
    | nil => exact Nat.le_trans h h'
    | cons y k r => exact ⟨Nat.le_trans h h'.1, h'.2⟩
  | cons x k r _ ih => exact ⟨h.1, h.2.1, ih h.2.2⟩

theorem Within.split {a c : Nat} {F G : Forest (Lab α)} (h : Within a (F ++ G) c) :
    ∃ b, Within a F b ∧ Within b G c := by
  induction F generalizing a with
  | nil => exact ⟨a, Nat.le_refl _, h⟩
  | cons x k r _ ih =>
    obtain ⟨h1, h2, h3⟩ := h
    obtain ⟨b, h4, h5⟩ := ih h3
    exact ⟨b, ⟨h1, h2, h4⟩, h5⟩

/-- Cut the bound down to the end of the last element. -/
theorem Within.last {a b : Nat} {F : Forest (Lab α)} (h : Within a F b) {x : Lab α}
    (hx : F.last? = some x) : Within a F x.span.stop ∧ x.span.stop ≤ b := by
  induction F generalizing a with
  | nil => simp [Forest.last?] at hx
  | cons y k r _ ih =>
    cases r with
    | nil =>
      rw [last?_single] at hx
      obtain rfl := Option.some.inj hx
      exact ⟨⟨h.1, h.2.1, Nat.le_refl _⟩, h.2.2⟩
    | cons z k' r' =>
      rw [last?_cons] at hx
      obtain ⟨h1, h2⟩ := ih h.2.2 hx
      exact ⟨⟨h.1, h.2.1, h1⟩, h2⟩

theorem Within.leaf {x : Lab α} {a : Nat} (h1 : a ≤ x.span.start)
    (h2 : x.span.start ≤ x.span.stop) : Within a (Forest.leaf x) x.span.stop :=
  ⟨h1, h2, Nat.le_refl _⟩

theorem Within.head {a b : Nat} {x : Lab α} {k r : Forest (Lab α)}
    (h : Within a (.cons x k r) b) : Within x.span.start (.cons x k r) b :=
  ⟨Nat.le_refl _, h.2⟩

/-- The stack of open nodes, `s` being where the children of the innermost one may start. -/
def OkWithin : Stack α → Nat → Prop
  | [], _ => True
  | (x, left) :: st, s => x.span.start = s ∧ ∃ s', Within s' left s ∧ OkWithin st s'

theorem OkWithin.endParent {st : Stack α} {s stop : Nat} (h : OkWithin st s) :
    OkWithin (Nest.endParent stop st) s := by
  cases st with
  | nil => trivial
  | cons p st => exact ⟨h.1, h.2⟩

theorem OkWithin.growParent {st : Stack α} {s : Nat} {sp : Span} (h : OkWithin st s)
    (hle : s ≤ sp.start) : OkWithin (Nest.growParent sp st) s := by
  cases st with
  | nil => trivial
  | cons p st =>
    refine ⟨?_, h.2⟩
    have := h.1
    simp only [Span.join]
    omega

/-- The innermost open node reaches at least the end of its last child. -/
def TopReaches (cur : Forest (Lab α)) (st : Stack α) : Prop :=
  ∀ x left st', st = (x, left) :: st' → x.span.start ≤ x.span.stop ∧
    ∀ y, cur.last? = some y → y.span.stop ≤ x.span.stop

structure WithinInv (n : Nest α) : Prop where
  body : ∃ s, Within s n.cur n.cursor ∧ OkWithin n.stack s
  top : TopReaches n.cur n.stack

theorem last?_append_single (F : Forest (Lab α)) (x : Lab α) (k : Forest (Lab α)) :
    (F ++ Forest.single x k).last? = some x := by
  simp [Forest.last?]

theorem last?_append_cons (F : Forest (Lab α)) (x : Lab α) (k r : Forest (Lab α)) :
    (F ++ .cons x k r).last? = (Forest.cons x k r).last? := by
  simp only [Forest.last?, tops_append, List.getLast?_append, tops_cons]
  cases h : (x :: r.tops).getLast? with
  | none => simp at h
  | some y => rfl

/-- A leaf with span `sp` is appended. -/
theorem WithinInv.leaf {n n' : Nest α} (h : WithinInv n) {d : α} {sp : Span} {i : Nat}
    (h1 : n.cursor ≤ sp.start) (h2 : sp.start ≤ sp.stop)
    (hcur : n'.cur = n.cur ++ Forest.leaf ⟨i, d, sp⟩) (hc : sp.stop ≤ n'.cursor)
    (hst : n'.stack = Nest.endParent sp.stop n.stack ∨
      n'.stack = Nest.growParent sp (Nest.endParent sp.stop n.stack)) : WithinInv n' := by
  obtain ⟨s, hb, ho⟩ := h.body
  have hs : s ≤ sp.start := Nat.le_trans hb.le h1
  refine ⟨⟨s, ?_, ?_⟩, ?_⟩
  · rw [hcur]
    exact ((hb.mono h1).append (Within.leaf (x := ⟨i, d, sp⟩) (Nat.le_refl _) h2)).mono hc
  · rcases hst with e | e <;> rw [e]
    · exact ho.endParent
    · exact ho.endParent.growParent hs
  · intro x left st' e
    have hx : x.span.start ≤ x.span.stop ∧ sp.stop ≤ x.span.stop := by
      cases hst0 : n.stack with
      | nil => rcases hst with e' | e' <;> rw [e', hst0] at e <;> simp [Nest.endParent, Nest.growParent] at e
      | cons p st0 =>
        rw [hst0] at ho
        have h3 := ho.1
        rcases hst with e' | e' <;> rw [e', hst0] at e <;>
          simp only [Nest.endParent, Nest.growParent, List.cons.injEq, Prod.mk.injEq] at e <;>
          obtain ⟨⟨rfl, _⟩, _⟩ := e <;> simp only [Span.join] <;> omega
    refine ⟨hx.1, ?_⟩
    intro y hy
    rw [hcur, last?_append_single] at hy
    obtain rfl := Option.some.inj hy
    exact hx.2

theorem WithinInv.did {n n' : Nest α} {op : Op α} {o : Except Err Out} (h : WithinInv n)
    (hd : Did fl n op n' o) (hok : OkCall n.cursor op) : WithinInv n' := by
  have mono : ∀ c, n.cursor ≤ c → ∀ n' : Nest α, n'.cur = n.cur → n'.stack = n.stack →
      n'.cursor = c → WithinInv n' := by
    intro c hc n' e1 e2 e3
    obtain ⟨s, hb, ho⟩ := h.body
    exact ⟨⟨s, by rw [e1, e3]; exact hb.mono hc, by rw [e2]; exact ho⟩, by rw [e1, e2]; exact h.top⟩
  cases hd with
  | fail _ _ => exact h
  | lost d len c he ha hf =>
    have := checkedAddLen_some he ha
    exact mono c (by omega) _ rfl rfl rfl
  | noHandle _ => exact h
  | setCursor i => exact mono i hok _ rfl rfl rfl
  | mark _ => exact mono _ (Nat.le_refl _) _ rfl rfl rfl
  | opened _ d sp hop _ =>
    have hsp : sp.start = n.cursor ∧ sp.start ≤ sp.stop := by
      rcases hop with ⟨_, rfl⟩ | rfl
      · exact ⟨rfl, Nat.le_refl _⟩
      · exact hok
    obtain ⟨s, hb, ho⟩ := h.body
    refine ⟨⟨n.cursor, Nat.le_refl _, ⟨hsp.1, s, hb, ho.endParent⟩⟩, ?_⟩
    intro x left st' e
    simp only [Nest.addOpen, List.cons.injEq, Prod.mk.injEq] at e
    obtain ⟨⟨rfl, _⟩, _⟩ := e
    exact ⟨hsp.2, by simp [Nest.addOpen, Forest.last?]⟩
  | emptyTok _ d hop _ =>
    exact h.leaf (sp := Span.point n.cursor) (Nat.le_refl _) (Nat.le_refl _) rfl (Nat.le_refl _)
      (.inl rfl)
  | tok d len c he ha _ =>
    have := checkedAddLen_some he ha
    exact h.leaf (sp := ⟨n.cursor, c⟩) (Nat.le_refl _) (by simp only; omega) rfl (Nat.le_refl _)
      (.inl rfl)
  | tokWith d sp _ =>
    exact h.leaf (sp := sp) hok.1 hok.2 rfl (Nat.le_refl _) (.inr rfl)
  | closed x left st hs =>
    obtain ⟨s, hb, ho⟩ := h.body
    rw [hs] at ho
    obtain ⟨h1, s', h2, h3⟩ := ho
    obtain ⟨h4, h5⟩ := h.top x left st hs
    have hk : Within x.span.start n.cur x.span.stop := by
      rw [h1]
      cases hl : n.cur.last? with
      | none =>
        have : n.cur = .nil := by
          cases hc : n.cur with
          | nil => rfl
          | cons a b c => rw [hc] at hl; simp [Forest.last?] at hl
        rw [this]
        show s ≤ _
        omega
      | some y => exact (hb.last hl).1.mono (h5 y hl)
    refine ⟨⟨s', ?_, ?_⟩, ?_⟩
    · exact h2.append (show Within s (Forest.single x n.cur) x.span.stop from
        ⟨by omega, hk, Nat.le_refl _⟩)
    · exact h3.growParent (by have := h2.le; omega)
    · intro y l st' e
      have hy : y.span.start ≤ x.span.start ∧ x.span.stop ≤ y.span.stop := by
        cases st with
        | nil => simp [Nest.growParent] at e
        | cons p st0 =>
          simp only [Nest.growParent, List.cons.injEq, Prod.mk.injEq] at e
          obtain ⟨⟨rfl, _⟩, _⟩ := e
          simp only [Span.join]; omega
      refine ⟨by omega, ?_⟩
      intro z hz
      simp only at hz
      rw [last?_append_single] at hz
      obtain rfl := Option.some.inj hz
      exact hy.2
  | wrapped _ k d explicit m hop _ _ _ _ =>
    rcases hop with ⟨rfl, rfl⟩ | ⟨sp, rfl, _⟩
    · unfold Nest.wrap
      by_cases hnil : (n.cur.drop m.pos).isNil = true
      · rw [if_pos hnil]
        exact h.leaf (sp := Span.point n.cursor) (Nat.le_refl _) (Nat.le_refl _) rfl
          (Nat.le_refl _) (.inl rfl)
      · rw [if_neg hnil]
        obtain ⟨s, hb, ho⟩ := h.body
        have htop := h.top
        rw [← take_append_drop m.pos n.cur] at hb htop
        obtain ⟨b, h1, h2⟩ := hb.split
        cases hdr : n.cur.drop m.pos with
        | nil => rw [hdr] at hnil; simp at hnil
        | cons x k r =>
          rw [hdr] at h2 htop
          obtain ⟨y, hy⟩ := last?_isSome (F := Forest.cons x k r) (by simp)
          have hstr : Nest.stretch (Forest.cons x k r) = ⟨x.span.start, y.span.stop⟩ := by
            unfold Nest.stretch
            rw [hy, head?_cons]; rfl
          have h3 := h2.last hy
          refine ⟨⟨s, ?_, ho⟩, ?_⟩
          · refine h1.append (G := Forest.single _ _) ?_
            simp only [Option.getD_none, hstr]
            exact ⟨h2.1, h3.1.head, h3.2⟩
          · intro z left st' e
            obtain ⟨g1, g2⟩ := htop z left st' e
            refine ⟨g1, ?_⟩
            intro w hw
            simp only [last?_append_single, Option.getD_none, hstr] at hw
            obtain rfl := Option.some.inj hw
            exact g2 y (by rw [last?_append_cons]; exact hy)
    · exact absurd hok (by simp [OkCall])

theorem WithinInv.of_run {ops : List (Op α)} {n : Nest α} {os : List (Except Err Out)}
    (h : Nest.init.run fl ops = some (n, os)) (hok : InOrder fl ops) : WithinInv n := by
  have key : ∀ (ops : List (Op α)) (n : Nest α) os, Nest.init.run fl ops = some (n, os) → InOrder fl ops → WithinInv n := by
    refine Nest.run_induct (P := fun ops n os => InOrder fl ops → WithinInv n) ?_ ?_
    · intro _
      exact ⟨⟨0, Nat.le_refl _, trivial⟩, by intro x l st e; simp [Nest.init] at e⟩
    · intro ops n os op n' o hrun hi hst hord
      refine (hi ?_).did (Nest.step_did hst) ?_
      · intro pre op' post e
        exact hord pre op' (post ++ [op]) (by rw [e]; simp)
      · have := hord ops op [] rfl
        obtain ⟨s, e, r⟩ := (Rel.init false).run (g' := false) fl ops hrun (by simp)
        rw [e] at this
        rw [← r.cursor]; exact this
  exact key ops n os h hok

theorem Within.loc {T : Nat} {F : Forest (Lab α)} {anc : List (Lab α)}
    {left kids right : Forest (Lab α)} {x : Lab α} (h : Within 0 F T)
    (hl : Loc F anc left x kids right) :
    ∃ a b, Within a (left ++ .cons x kids right) b := by
  induction hl with
  | root e => subst e; exact ⟨0, T, h⟩
  | child hl' e ih =>
    obtain ⟨a, b, h1⟩ := ih
    obtain ⟨c, _, h2⟩ := h1.split
    subst e
    exact ⟨_, _, h2.2.1⟩

end Syntree
