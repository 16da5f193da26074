import Verif.Proof.Wrap

/-! How a list of links represents a nested list, if less is known about the stored last children:
only that they lie on the right spine. (`Proof/Seg.lean` says exactly which node it is, for histories
in which no swallowed checkpoint is used.) -/

namespace Syntree

variable {α : Type}

open Forest

/-- The stored last child lies on the right spine of the children `k`. -/
def LastOn (l : Option Nat) (k : Forest (Lab α)) : Prop :=
  (k = nil → l = none) ∧ (k ≠ nil → ∃ i, l = some i ∧ i ∈ k.spine.map (·.id))

theorem LastOn.nil : LastOn none (nil : Forest (Lab α)) := ⟨fun _ => rfl, fun h => absurd rfl h⟩

theorem LastOn.exact {k : Forest (Lab α)} : LastOn k.lastId k := by
  refine ⟨fun h => by simp [h], fun h => ?_⟩
  obtain ⟨i, hi⟩ := lastId_isSome h
  exact ⟨i, hi, lastId_spine hi⟩

/-- Like `Seg`. -/
def SegL (nodes : List (Links α)) :
    Forest (Lab α) → (par prev nxt : Option Nat) → Prop
  | .nil, _, _, _ => True
  | .cons x k r, par, prev, nxt =>
    (∃ l, LastOn l k ∧
      nodes[x.id]? = some (mkLinks x par prev (r.headId.or nxt) k.headId l)) ∧
    SegL nodes k (some x.id) none none ∧ SegL nodes r par (some x.id) nxt

@[simp] theorem SegL_nil {nodes : List (Links α)} {par prev nxt : Option Nat} :
    SegL nodes nil par prev nxt ↔ True := Iff.rfl

theorem SegL_cons {nodes : List (Links α)} {x : Lab α} {k r : Forest (Lab α)}
    {par prev nxt : Option Nat} :
    SegL nodes (.cons x k r) par prev nxt ↔
    (∃ l, LastOn l k ∧
      nodes[x.id]? = some (mkLinks x par prev (r.headId.or nxt) k.headId l)) ∧
    SegL nodes k (some x.id) none none ∧ SegL nodes r par (some x.id) nxt := Iff.rfl

/-- Like `RepCtx`. -/
def RepCtxL (nodes : List (Links α)) (tfirst tlast : Option Nat) :
    List (Lab α × Forest (Lab α)) → (h : Option Nat) → (L : Option Nat → Prop) → Prop
  | [], h, L => tfirst = h ∧ L tlast
  | (x, left) :: st, h, L =>
    (∃ l, L l ∧
      nodes[x.id]? = some (mkLinks x (st.head?.map (·.1.id)) left.lastId none h l)) ∧
    SegL nodes left (st.head?.map (·.1.id)) none (some x.id) ∧
    RepCtxL nodes tfirst tlast st (left.headId.or (some x.id)) (· = some x.id)

/-- Like `TRep`. -/
structure TRepL (t : Tree α) (cur : Forest (Lab α)) (st : Stack α) (count : Nat) : Prop where
  seg : SegL t.nodes cur (parOf st) none none
  ctx : RepCtxL t.nodes t.first t.last st cur.headId (fun l => LastOn l cur)
  ids : (cur.ids ++ stackIds st).Perm (List.range count)
  len : t.nodes.length = count

theorem TRepL.nodup {t : Tree α} {cur : Forest (Lab α)} {st : Stack α} {count : Nat}
    (h : TRepL t cur st count) : (cur.ids ++ stackIds st).Nodup :=
  h.ids.nodup_iff.2 List.nodup_range

theorem TRepL.lt {t : Tree α} {cur : Forest (Lab α)} {st : Stack α} {count : Nat}
    (h : TRepL t cur st count) {i : Nat} (hi : i ∈ cur.ids ++ stackIds st) : i < count := by
  have := h.ids.mem_iff.1 hi
  simpa using this

theorem SegL.congr {nodes nodes' : List (Links α)} {F : Forest (Lab α)}
    {par prev nxt : Option Nat} (h : SegL nodes F par prev nxt)
    (e : ∀ i ∈ F.ids, nodes'[i]? = nodes[i]?) : SegL nodes' F par prev nxt := by
  induction F generalizing par prev nxt with
  | nil => trivial
  | cons x k r ihk ihr =>
    obtain ⟨⟨l, hl, hx⟩, hk, hr⟩ := h
    refine ⟨⟨l, hl, ?_⟩, ihk hk ?_, ihr hr ?_⟩
    · rw [e x.id (by simp)]; exact hx
    · intro i hi; exact e i (by simp [hi])
    · intro i hi; exact e i (by simp [hi])

theorem SegL_append {nodes : List (Links α)} {F G : Forest (Lab α)}
    {par prev nxt : Option Nat} :
    SegL nodes (F ++ G) par prev nxt ↔
      SegL nodes F par prev (G.headId.or nxt) ∧ SegL nodes G par (F.lastId.or prev) nxt := by
  induction F generalizing prev with
  | nil => simp
  | cons x k r _ ihr =>
    rw [cons_append, SegL_cons, SegL_cons, ihr, headId_append, lastId_cons]
    have h1 : (r.headId.or G.headId).or nxt = r.headId.or (G.headId.or nxt) := by
      cases r.headId <;> rfl
    have h2 : (r.lastId.or (some x.id)).or prev = r.lastId.or (some x.id) := by
      cases r.lastId <;> rfl
    rw [h1, h2]
    constructor
    · rintro ⟨a, b, c, d⟩; exact ⟨⟨a, b, c⟩, d⟩
    · rintro ⟨⟨a, b, c⟩, d⟩; exact ⟨a, b, c, d⟩

/-- Change what follows the run: set `next` of its last element. -/
theorem SegL.setNext {nodes nodes' : List (Links α)} {F : Forest (Lab α)}
    {par prev nxt nxt' : Option Nat} (h : SegL nodes F par prev nxt) (nd : F.ids.Nodup)
    (e : ∀ i ∈ F.ids, some i ≠ F.lastId → nodes'[i]? = nodes[i]?)
    (e' : ∀ i, F.lastId = some i →
      nodes'[i]? = (nodes[i]?).map (fun l => { l with next := nxt' })) :
    SegL nodes' F par prev nxt' := by
  induction F generalizing par prev nxt with
  | nil => trivial
  | cons x k r ihk ihr =>
    obtain ⟨⟨l, hl, hx⟩, hk, hr⟩ := h
    have nd' : x.id ∉ k.ids ∧ x.id ∉ r.ids ∧ k.ids.Nodup ∧ r.ids.Nodup ∧
        ∀ i ∈ k.ids, i ∉ r.ids := by
      rw [ids_cons, List.nodup_cons, List.mem_append, List.nodup_append] at nd
      obtain ⟨h1, h2, h3, h4⟩ := nd
      exact ⟨fun h => h1 (Or.inl h), fun h => h1 (Or.inr h), h2, h3,
        fun i hi hr => h4 i hi i hr rfl⟩
    obtain ⟨n1, n2, n3, n4, n5⟩ := nd'
    have lastNe : ∀ i ∈ k.ids, some i ≠ (cons x k r).lastId := by
      intro i hi he
      rw [lastId_cons] at he
      cases hrl : r.lastId with
      | none => rw [hrl] at he; simp at he; exact n1 (he ▸ hi)
      | some j => rw [hrl] at he; simp at he; exact n5 i hi (he ▸ lastId_mem hrl)
    refine ⟨⟨l, hl, ?_⟩, hk.congr ?_, ?_⟩
    · cases r with
      | nil =>
        rw [e' x.id (by simp), hx]; simp [mkLinks]
      | cons y k' r' =>
        rw [e x.id (by simp), hx]
        · simp
        · intro he
          rw [lastId_cons] at he
          obtain ⟨j, hj⟩ := lastId_isSome (F := cons y k' r') (by simp)
          rw [hj] at he; simp at he
          exact n2 (he ▸ lastId_mem hj)
    · intro i hi; exact e i (by simp [hi]) (lastNe i hi)
    · refine ihr hr n4 ?_ ?_
      · intro i hi hne
        apply e i (by simp [hi])
        rw [lastId_cons]
        cases hrl : r.lastId with
        | none =>
          have : r = Forest.nil := lastId_eq_none.1 hrl
          subst this; simp at hi
        | some j => rw [hrl] at hne; simpa using hne
      · intro i hi
        apply e' i; rw [lastId_cons, hi]; rfl

/-- Give every element of a run a new parent. -/
theorem SegL.setParent {nodes nodes' : List (Links α)} {F : Forest (Lab α)}
    {par par' prev nxt : Option Nat} (h : SegL nodes F par prev nxt) (nd : F.ids.Nodup)
    (e : ∀ i ∈ F.ids, i ∉ F.topIds → nodes'[i]? = nodes[i]?)
    (e' : ∀ i ∈ F.topIds, nodes'[i]? = (nodes[i]?).map (fun l => { l with parent := par' })) :
    SegL nodes' F par' prev nxt := by
  induction F generalizing par prev nxt with
  | nil => trivial
  | cons x k r ihk ihr =>
    obtain ⟨⟨l, hl, hx⟩, hk, hr⟩ := h
    rw [ids_cons, List.nodup_cons, List.mem_append, List.nodup_append] at nd
    obtain ⟨h1, h2, h3, h4⟩ := nd
    refine ⟨⟨l, hl, ?_⟩, hk.congr ?_, ihr hr h3 ?_ ?_⟩
    · rw [e' x.id (by simp), hx]; simp [mkLinks]
    · intro i hi
      apply e i (by simp [hi])
      simp only [topIds_cons, List.mem_cons, not_or]
      exact ⟨fun he => h1 (Or.inl (he ▸ hi)), fun hm => h4 i hi i (mem_ids_of_mem_topIds hm) rfl⟩
    · intro i hi hne
      apply e i (by simp [hi])
      simp only [topIds_cons, List.mem_cons, not_or]
      exact ⟨fun he => h1 (Or.inr (he ▸ hi)), hne⟩
    · intro i hi; exact e' i (by simp [hi])

theorem RepCtxL.congr {nodes nodes' : List (Links α)} {f l : Option Nat}
    {st : List (Lab α × Forest (Lab α))} {h : Option Nat} {L L' : Option Nat → Prop}
    (hr : RepCtxL nodes f l st h L) (hL : ∀ l, L l → L' l)
    (e : ∀ i ∈ stackIds st, nodes'[i]? = nodes[i]?) : RepCtxL nodes' f l st h L' := by
  induction st generalizing h L L' with
  | nil => exact ⟨hr.1, hL _ hr.2⟩
  | cons p st ih =>
    obtain ⟨x, left⟩ := p
    obtain ⟨⟨l, hl, hx⟩, hs, hst⟩ := hr
    refine ⟨⟨l, hL _ hl, ?_⟩, hs.congr ?_, ih hst (fun _ h => h) ?_⟩
    · rw [e x.id (by simp [stackIds])]; exact hx
    · intro i hi; exact e i (by simp [stackIds, hi])
    · intro i hi; exact e i (by simp [stackIds, hi])

/-- Re-parenting loop of `close_at`. -/
theorem restructure_specL (newId : Nat) (nodes : List (Links α)) (x : Lab α)
    (k r : Forest (Lab α)) (par prev : Option Nat) (fuel : Nat)
    (h : SegL nodes (.cons x k r) par prev none) (nd : (Forest.cons x k r).ids.Nodup)
    (hf : (Forest.cons x k r).tops.length ≤ fuel) :
    ∃ nodes', restructure newId fuel nodes x.id =
        (nodes', .ok (((Forest.cons x k r).lastId).getD 0,
          ((Forest.cons x k r).last?.map (·.span.stop)).getD 0)) ∧
      nodes'.length = nodes.length ∧
      (∀ i, nodes'[i]? = if i ∈ (Forest.cons x k r).topIds then
        (nodes[i]?).map (fun l => { l with parent := some newId }) else nodes[i]?) := by
  induction fuel generalizing nodes x k r prev with
  | zero => simp at hf
  | succ fuel ih =>
    obtain ⟨⟨l, hl, hx⟩, hk, hr⟩ := h
    rw [ids_cons, List.nodup_cons, List.mem_append, List.nodup_append] at nd
    obtain ⟨h1, h2, h3, h4⟩ := nd
    have hlt : x.id < nodes.length := by
      have := List.getElem?_eq_some_iff.1 hx; exact this.1
    rw [restructure, hx]
    cases r with
    | nil =>
      refine ⟨nodes.set x.id { mkLinks x par prev none k.headId l with parent := some newId },
        by simp [mkLinks, last?, tops], by simp, ?_⟩
      intro i
      by_cases hi : i = x.id
      · subst hi; rw [List.getElem?_set_self hlt, hx]; simp [mkLinks]
      · simp [hi, Ne.symm hi]
    | cons y k' r' =>
      have hr' : SegL (nodes.set x.id
          { mkLinks x par prev (some y.id) k.headId l with parent := some newId })
          (.cons y k' r') par (some x.id) none := by
        refine hr.congr ?_
        intro i hi
        have : x.id ≠ i := fun he => h1 (Or.inr (he ▸ hi))
        simp [this]
      obtain ⟨nodes', e1, e2, e3⟩ := ih _ y k' r' (some x.id) hr' h3 (by simpa using hf)
      refine ⟨nodes', ?_, by simpa using e2, ?_⟩
      · simp only [mkLinks, headId_cons, Option.some_or] at e1 ⊢
        rw [e1]
        obtain ⟨j, hj⟩ := lastId_isSome (F := Forest.cons y k' r') (by simp)
        have hl2 : (Forest.cons x k (Forest.cons y k' r')).last? =
            (Forest.cons y k' r').last? := by simp [last?, List.getLast?_cons]
        rw [lastId_cons x, hj, hl2]; rfl
      · intro i
        rw [e3 i]
        by_cases hi : i = x.id
        · subst hi
          have : x.id ∉ (Forest.cons y k' r').topIds := fun h => h1 (Or.inr (mem_ids_of_mem_topIds h))
          rw [if_neg this, List.getElem?_set_self hlt, hx]; simp [mkLinks]
        · simp only [topIds_cons, List.mem_cons, hi, false_or]
          rw [List.getElem?_set_ne (Ne.symm hi)]

/-- `RepCtx` only looks at nodes, `first` and `last`. -/
theorem TRepL.congr {t t' : Tree α} {cur : Forest (Lab α)} {st : Stack α} {count : Nat}
    (h : TRepL t cur st count) (hn : t'.nodes = t.nodes) (hf : t'.first = t.first)
    (hl : t'.last = t.last) : TRepL t' cur st count := by
  obtain ⟨a, b, c, d⟩ := h
  exact ⟨hn ▸ a, by rw [hn, hf, hl]; exact b, c, hn ▸ d⟩

/-- The shared part of inserting a leaf and of opening a node. -/
theorem TRepL.insert {fl : Flavor} {b : Builder α} {d : α} {sp : Span}
    {cur : Forest (Lab α)} {st : Stack α} {count : Nat}
    (h : TRepL b.tree cur st count) (hpar : b.parent = parOf st) (hsib : b.sibling = cur.lastId)
    (hc : count < 2 ^ fl.width - 1) :
    ∃ T : Tree α,
      b.insert fl d sp = ({ b with tree := T, sibling := none }, .ok count) ∧
      T.nodes.length = count + 1 ∧ T.indexes = b.tree.indexes ∧ T.span = b.tree.span ∧
      T.nodes[count]? = some (mkLinks ⟨count, d, sp⟩ (parOf st) cur.lastId none none none) ∧
      SegL T.nodes cur (parOf st) none (some count) ∧
      RepCtxL T.nodes T.first T.last (Nest.endParent sp.stop st)
        (cur.headId.or (some count)) (· = some count) := by
  have nd := h.nodup
  obtain ⟨nd1, nd2, nd3⟩ := List.nodup_append.1 nd
  have hlt : ∀ {i}, i ∈ cur.ids ++ stackIds st → i < count := h.lt
  obtain ⟨T, e, l, ix, spn, enew, epar, esib, eoth, efirst, elast⟩ :=
    insert_ok (fl := fl) (b := b) (d := d) (sp := sp) (by rw [h.len]; exact hc)
      (by intro i hi; rw [h.len]; exact hlt (List.mem_append_right _ (parOf_mem (hpar ▸ hi))))
      (by intro i hi; rw [h.len]; exact hlt (List.mem_append_left _ (lastId_mem (hsib ▸ hi))))
      (by
        intro i hi hi'
        rw [hpar] at hi; rw [hsib] at hi'
        exact nd3 i (lastId_mem hi') i (parOf_mem hi) rfl)
  rw [h.len] at *
  refine ⟨T, e, l, ix, spn, ?_, ?_, ?_⟩
  · rw [enew, hpar, hsib]; rfl
  · refine h.seg.setNext nd1 ?_ ?_
    · intro i hi hne
      refine eoth i (hlt (List.mem_append_left _ hi)) ?_ ?_
      · rw [hpar]; intro hp; exact nd3 i hi i (parOf_mem hp) rfl
      · rw [hsib]; exact fun h => hne h.symm
    · intro i hi; exact esib i (hsib ▸ hi)
  · cases st with
    | nil =>
      obtain ⟨c1, c2⟩ := h.ctx
      have : b.parent = none := by rw [hpar]; rfl
      simp only [this, if_true] at efirst elast
      exact ⟨by rw [efirst, c1], elast⟩
    | cons p st =>
      obtain ⟨x, left⟩ := p
      obtain ⟨⟨l', hl', hx⟩, hs, hst⟩ := h.ctx
      have hparx : b.parent = some x.id := by rw [hpar]; rfl
      simp only [hparx, reduceCtorEq, if_false] at efirst elast
      have nd2' := nd2
      simp only [stackIds] at nd2'
      rw [List.nodup_cons] at nd2'
      have other : ∀ i ∈ left.ids ++ stackIds st, T.nodes[i]? = b.tree.nodes[i]? := by
        intro i hi
        have hi' : i ∈ stackIds ((x, left) :: st) := by
          simp only [stackIds]; exact List.mem_cons_of_mem _ hi
        refine eoth i (hlt (List.mem_append_right _ hi')) ?_ ?_
        · rw [hparx]; intro he; simp at he; exact nd2'.1 (he ▸ hi)
        · rw [hsib]; intro he; exact nd3 i (lastId_mem he) i hi' rfl
      refine ⟨⟨some count, rfl, ?_⟩, ?_, ?_⟩
      · show T.nodes[x.id]? = _
        rw [epar x.id hparx, hx]
        simp only [Option.map_some, Links.addChild, mkLinks, Option.some.injEq, Links.mk.injEq,
          true_and, and_true]
        cases cur.headId <;> rfl
      · exact hs.congr fun i hi => other i (List.mem_append_left _ hi)
      · rw [efirst, elast]
        exact hst.congr (fun _ h => h) fun i hi => other i (List.mem_append_right _ hi)

/-- Inserting a leaf. -/
theorem TRepL.insertLeaf {fl : Flavor} {b : Builder α} {d : α} {sp : Span}
    {cur : Forest (Lab α)} {st : Stack α} {count : Nat}
    (h : TRepL b.tree cur st count) (hpar : b.parent = parOf st) (hsib : b.sibling = cur.lastId)
    (hc : count < 2 ^ fl.width - 1) :
    ∃ T : Tree α,
      b.insert fl d sp = ({ b with tree := T, sibling := none }, .ok count) ∧
      T.indexes = b.tree.indexes ∧ T.span = b.tree.span ∧
      TRepL T (cur ++ leaf ⟨count, d, sp⟩) (Nest.endParent sp.stop st) (count + 1) := by
  obtain ⟨T, e, l, ix, spn, enew, eseg, ectx⟩ := h.insert (fl := fl) (d := d) (sp := sp) hpar hsib hc
  refine ⟨T, e, ix, spn, ?_, ?_, ?_, l⟩
  · rw [parOf_endParent, SegL_append]
    refine ⟨by simpa using eseg, ⟨none, LastOn.nil, ?_⟩, trivial, trivial⟩
    rw [enew]; simp
  · have : (cur ++ leaf (⟨count, d, sp⟩ : Lab α)).headId = cur.headId.or (some count) := by
      rw [headId_append]; rfl
    rw [this]
    refine ectx.congr ?_ (fun _ _ => rfl)
    rintro l rfl
    have hlast : (cur ++ leaf (⟨count, d, sp⟩ : Lab α)).lastId = some count := by
      rw [lastId_append]; rfl
    rw [← hlast]; exact LastOn.exact
  · rw [stackIds_endParent]
    have := range_perm_snoc h.ids
    refine List.Perm.trans ?_ this
    simp only [ids_append, ids_cons, ids_nil, List.append_nil, List.append_assoc,
      List.singleton_append]
    exact List.perm_middle

/-- Opening a node. -/
theorem TRepL.insertOpen {fl : Flavor} {b : Builder α} {d : α} {sp : Span}
    {cur : Forest (Lab α)} {st : Stack α} {count : Nat}
    (h : TRepL b.tree cur st count) (hpar : b.parent = parOf st) (hsib : b.sibling = cur.lastId)
    (hc : count < 2 ^ fl.width - 1) :
    ∃ T : Tree α,
      b.insert fl d sp = ({ b with tree := T, sibling := none }, .ok count) ∧
      T.indexes = b.tree.indexes ∧ T.span = b.tree.span ∧
      TRepL T .nil ((⟨count, d, sp⟩, cur) :: Nest.endParent sp.stop st) (count + 1) := by
  obtain ⟨T, e, l, ix, spn, enew, eseg, ectx⟩ := h.insert (fl := fl) (d := d) (sp := sp) hpar hsib hc
  refine ⟨T, e, ix, spn, trivial, ⟨⟨none, LastOn.nil, ?_⟩, ?_, ectx⟩, ?_, l⟩
  · have := parOf_endParent sp.stop st
    simp only [parOf] at this
    rw [this, enew]; simp
  · have := parOf_endParent sp.stop st
    simp only [parOf] at this
    rw [this]; exact eseg
  · simp only [ids_nil, List.nil_append, stackIds, stackIds_endParent]
    exact range_perm_snoc h.ids

/-- Extending the span of the innermost open node. -/
theorem RepCtxL.grow {nodes nodes' : List (Links α)} {f l : Option Nat}
    {st : Stack α} {h : Option Nat} {L : Option Nat → Prop} {sp : Span}
    (hr : RepCtxL nodes f l st h L) (nd : (stackIds st).Nodup)
    (e : ∀ i, parOf st = some i →
      nodes'[i]? = (nodes[i]?).map (fun p => { p with span := p.span.join sp }))
    (e' : ∀ i ∈ stackIds st, parOf st ≠ some i → nodes'[i]? = nodes[i]?) :
    RepCtxL nodes' f l (Nest.growParent sp st) h L := by
  cases st with
  | nil => exact hr
  | cons p st =>
    obtain ⟨x, left⟩ := p
    obtain ⟨⟨l', hl', hx⟩, hs, hst⟩ := hr
    simp only [stackIds, List.nodup_cons] at nd
    have other : ∀ i ∈ left.ids ++ stackIds st, nodes'[i]? = nodes[i]? := by
      intro i hi
      refine e' i (by simp only [stackIds]; exact List.mem_cons_of_mem _ hi) ?_
      simp only [parOf, List.head?_cons, Option.map_some, ne_eq, Option.some.injEq]
      rintro rfl; exact nd.1 hi
    refine ⟨⟨l', hl', ?_⟩, ?_, ?_⟩
    · rw [e x.id rfl, hx]; simp [mkLinks]
    · exact hs.congr fun i hi => other i (List.mem_append_left _ hi)
    · exact hst.congr (fun _ h => h) fun i hi => other i (List.mem_append_right _ hi)

/-- Extending the span of the innermost open node, on the whole tree. -/
theorem TRepL.grow {t : Tree α} {cur : Forest (Lab α)} {st : Stack α} {count : Nat}
    (h : TRepL t cur st count) (sp : Span) :
    TRepL (t.modifyOpt (parOf st) (fun p => { p with span := p.span.join sp })) cur
      (Nest.growParent sp st) count := by
  have nd := h.nodup
  obtain ⟨nd1, nd2, nd3⟩ := List.nodup_append.1 nd
  cases hp : parOf st with
  | none =>
    have : st = [] := by cases st with
      | nil => rfl
      | cons p st => simp [parOf] at hp
    subst this; exact h
  | some p =>
    have pm := parOf_mem hp
    simp only [Tree.modifyOpt, Tree.modifyNode]
    refine ⟨?_, ?_, ?_, by simp [h.len]⟩
    · rw [parOf_growParent]
      refine h.seg.congr fun i hi => ?_
      have : p ≠ i := by rintro rfl; exact nd3 p hi p pm rfl
      simp [this]
    · refine h.ctx.grow nd2 ?_ ?_
      · intro i hi
        rw [hp] at hi; simp only [Option.some.injEq] at hi; subst hi
        simp
      · intro i hi hne
        rw [hp] at hne
        have : p ≠ i := by rintro rfl; exact hne rfl
        simp [this]
    · rw [stackIds_growParent]; exact h.ids

/-- Closing the innermost open node, before the parent's span is extended. -/
theorem TRepL.pop {t : Tree α} {cur left : Forest (Lab α)} {x : Lab α} {st : Stack α}
    {count : Nat} (h : TRepL t cur ((x, left) :: st) count) :
    TRepL t (left ++ single x cur) st count := by
  obtain ⟨⟨l, hl, hx⟩, hs, hst⟩ := h.ctx
  refine ⟨?_, ?_, ?_, h.len⟩
  · rw [SegL_append]
    refine ⟨by simpa using hs, ⟨l, hl, ?_⟩, ?_, trivial⟩
    · rw [hx]; simp
    · exact h.seg
  · have : (left ++ single x cur).headId = left.headId.or (some x.id) := by
      rw [headId_append]; rfl
    rw [this]
    refine hst.congr ?_ (fun _ _ => rfl)
    rintro l rfl
    have hlast : (left ++ single x cur).lastId = some x.id := by rw [lastId_append]; rfl
    rw [← hlast]
    exact LastOn.exact
  · refine List.Perm.trans ?_ h.ids
    simp only [ids_append, ids_cons, ids_nil, List.append_nil, stackIds, List.append_assoc,
      List.cons_append]
    -- left ++ x :: (cur ++ st) ~ cur ++ x :: (left ++ st)
    refine List.Perm.trans List.perm_middle (List.Perm.trans ?_ List.perm_middle.symm)
    refine List.Perm.cons _ ?_
    rw [← List.append_assoc, ← List.append_assoc]
    exact List.Perm.append_right _ List.perm_append_comm

/-- What happens to the wrapped siblings. -/
theorem reparent_specL {nodes : List (Links α)} {y : Lab α} {ky r : Forest (Lab α)}
    {par prev : Option Nat} {ly : Option Nat} (newId : Nat)
    (hs : SegL nodes (.cons y ky r) par prev none)
    (hy : nodes[y.id]? = some (mkLinks y par prev (r.headId.or none) ky.headId ly))
    (nd : (Forest.cons y ky r).ids.Nodup) (hw : (Forest.cons y ky r).tops.length ≤ nodes.length) :
    ∃ nodes2 : List (Links α),
      reparent newId y.id (mkLinks y par prev (r.headId.or none) ky.headId ly) nodes =
        (nodes2, .ok (((Forest.cons y ky r).lastId).getD 0, Nest.stretch (Forest.cons y ky r))) ∧
      nodes2.length = nodes.length ∧
      nodes2[y.id]? = some (mkLinks y (some newId) none (r.headId.or none) ky.headId ly) ∧
      (∀ i ∈ r.topIds, nodes2[i]? =
        (nodes[i]?).map (fun l => { l with parent := some newId })) ∧
      (∀ i, i ≠ y.id → i ∉ r.topIds → nodes2[i]? = nodes[i]?) := by
  have hlt : y.id < nodes.length := (List.getElem?_eq_some_iff.1 hy).1
  obtain ⟨_, hk, hr⟩ := hs
  rw [ids_cons, List.nodup_cons, List.mem_append, List.nodup_append] at nd
  obtain ⟨h1, h2, h3, h4⟩ := nd
  cases r with
  | nil =>
    refine ⟨_, rfl, by simp, ?_, by simp, ?_⟩
    · rw [List.getElem?_set_self hlt]; rfl
    · intro i hi _; rw [List.getElem?_set_ne (Ne.symm hi)]
  | cons z kz r' =>
    have hr' : SegL (nodes.set y.id
        { mkLinks y par prev (some z.id) ky.headId ly with parent := some newId, prev := none })
        (.cons z kz r') par (some y.id) none := by
      refine hr.congr fun i hi => ?_
      have : y.id ≠ i := fun he => h1 (Or.inr (he ▸ hi))
      rw [List.getElem?_set_ne this]
    obtain ⟨nodes', e1, e2, e3⟩ := restructure_specL newId _ z kz r' par (some y.id)
      (nodes.length + 1) hr' h3 (by simp at hw ⊢; omega)
    refine ⟨nodes', ?_, by simpa using e2, ?_, ?_, ?_⟩
    · simp only [reparent, headId_cons, Option.some_or, mkLinks, List.length_set] at e1 ⊢
      rw [e1]
      obtain ⟨j, hj⟩ := lastId_isSome (F := Forest.cons z kz r') (by simp)
      have hl2 : (Forest.cons y ky (Forest.cons z kz r')).last? =
          (Forest.cons z kz r').last? := by simp [last?, List.getLast?_cons]
      simp only [Nest.stretch]
      rw [lastId_cons y, hj, hl2]
      simp [Span.new, head?]
    · rw [e3, if_neg (fun h => h1 (Or.inr (mem_ids_of_mem_topIds h))), List.getElem?_set_self hlt]
      rfl
    · intro i hi
      rw [e3, if_pos hi, List.getElem?_set_ne]
      rintro rfl; exact h1 (Or.inr (mem_ids_of_mem_topIds hi))
    · intro i hne hi
      rw [e3, if_neg hi, List.getElem?_set_ne (Ne.symm hne)]

/-- The number of siblings is at most the number of nodes. -/
theorem TRepL.width_le {t : Tree α} {cur : Forest (Lab α)} {st : Stack α} {count : Nat}
    (h : TRepL t cur st count) : cur.ids.length ≤ t.nodes.length := by
  have := h.ids.length_eq
  rw [h.len]; simp at this; omega

end Syntree
