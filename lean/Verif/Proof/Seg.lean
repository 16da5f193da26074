import Verif.Proof.Forest
import Verif.Spec.Last
import Verif.Model.Builder

/-! How a list of links represents a nested list. -/

namespace Syntree

variable {α : Type}

open Forest

/-- The links of node `x`. -/
def mkLinks (x : Lab α) (par prev next first last : Option Nat) : Links α :=
  { data := x.data, span := x.span, parent := par, prev := prev, next := next,
    first := first, last := last }

theorem wrappedBy_iff {i : Nat} {k : Forest (Lab α)} :
    k.wrappedBy i = true ↔ ∃ j, k.headId = some j ∧ j < i := by
  cases k <;> simp [wrappedBy]

theorem wrappedBy_false {i : Nat} {k : Forest (Lab α)} (h : ∀ j, k.headId = some j → i < j) :
    k.wrappedBy i = false := by
  cases hw : k.wrappedBy i with
  | false => rfl
  | true =>
    obtain ⟨j, h1, h2⟩ := wrappedBy_iff.1 hw
    have := h j h1
    omega

theorem heldLast_append {root : Bool} (F G : Forest (Lab α)) (hG : G ≠ nil) :
    (F ++ G).heldLast root = G.heldLast root := by
  induction F with
  | nil => rfl
  | cons x k r _ ih =>
    rw [cons_append, ← ih]
    cases hr : r ++ G with
    | nil => cases r <;> simp_all
    | cons y k' r' => rw [heldLast]

theorem heldLast_single {root : Bool} (x : Lab α) (k : Forest (Lab α)) :
    (single x k).heldLast root = if k.wrappedBy x.id then
      if root = false ∧ k.heldLast root = k.headId then some x.id else k.heldLast root
    else some x.id := by
  rw [single, heldLast]; rfl

/-- Just added. -/
theorem lastLink_fresh {F : Forest (Lab α)} {x : Lab α} {k : Forest (Lab α)} {o : Option Nat}
    (h : k.wrappedBy x.id = false) : (F ++ single x k).lastLink o = some x.id := by
  have h1 : ∀ root, (F ++ single x k).heldLast root = some x.id := by
    intro root
    rw [heldLast_append _ _ (by simp), heldLast_single, h]; rfl
  have h2 : (F ++ single x k).topIds.getLast? = some x.id := by
    show (F ++ single x k).lastId = _
    rw [lastId_append]; rfl
  cases o with
  | none => exact h1 true
  | some i =>
    show (if _ then _ else _) = _
    rw [h1, h2]; simp

/-- What is known about the stored `last` of a node (or the tree) `o` with children `k`: it is the
one of `lastLink`, and lies on the right spine; with `g` it is exactly the last child. -/
def LastRel (g : Bool) (o : Option Nat) (l : Option Nat) (k : Forest (Lab α)) : Prop :=
  (k = nil → l = none) ∧ (k ≠ nil → ∃ i, l = some i ∧ i ∈ k.spine.map (·.id)) ∧
    (g = true → l = k.lastId) ∧ l = k.lastLink o

theorem LastRel.nil {g : Bool} {o : Option Nat} : LastRel g o none (nil : Forest (Lab α)) := by
  refine ⟨fun _ => rfl, fun h => absurd rfl h, fun _ => rfl, ?_⟩
  cases o <;> rfl

theorem LastRel.exact {g : Bool} {o : Option Nat} {k : Forest (Lab α)}
    (hl : k.lastLink o = k.lastId) : LastRel g o k.lastId k := by
  refine ⟨fun h => by simp [h], fun h => ?_, fun _ => rfl, hl.symm⟩
  obtain ⟨i, hi⟩ := lastId_isSome h
  exact ⟨i, hi, lastId_spine hi⟩

theorem LastRel.weaken {g : Bool} {o l : Option Nat} {k : Forest (Lab α)} (h : LastRel g o l k) :
    LastRel false o l k := ⟨h.1, h.2.1, fun h => by simp at h, h.2.2.2⟩

/-- `Seg g nodes F par prev nxt`: the links in `nodes` of the nodes of `F` are exactly those of a
run of siblings with parent `par` that follows `prev` and is followed by `nxt`. -/
def Seg (g : Bool) (nodes : List (Links α)) :
    Forest (Lab α) → (par prev nxt : Option Nat) → Prop
  | .nil, _, _, _ => True
  | .cons x k r, par, prev, nxt =>
    (∃ l, LastRel g (some x.id) l k ∧
      nodes[x.id]? = some (mkLinks x par prev (r.headId.or nxt) k.headId l)) ∧
    Seg g nodes k (some x.id) none none ∧ Seg g nodes r par (some x.id) nxt

@[simp] theorem Seg_nil {g : Bool} {nodes : List (Links α)} {par prev nxt : Option Nat} :
    Seg g nodes nil par prev nxt ↔ True := Iff.rfl

theorem Seg_cons {g : Bool} {nodes : List (Links α)} {x : Lab α} {k r : Forest (Lab α)}
    {par prev nxt : Option Nat} :
    Seg g nodes (.cons x k r) par prev nxt ↔
    (∃ l, LastRel g (some x.id) l k ∧
      nodes[x.id]? = some (mkLinks x par prev (r.headId.or nxt) k.headId l)) ∧
    Seg g nodes k (some x.id) none none ∧ Seg g nodes r par (some x.id) nxt := Iff.rfl

theorem Seg.weaken {g : Bool} {nodes : List (Links α)} {F : Forest (Lab α)}
    {par prev nxt : Option Nat} (h : Seg g nodes F par prev nxt) :
    Seg false nodes F par prev nxt := by
  induction F generalizing par prev nxt with
  | nil => trivial
  | cons x k r ihk ihr =>
    obtain ⟨⟨l, hl, hx⟩, hk, hr⟩ := h
    exact ⟨⟨l, hl.weaken, hx⟩, ihk hk, ihr hr⟩

theorem Seg.congr {g : Bool} {nodes nodes' : List (Links α)} {F : Forest (Lab α)}
    {par prev nxt : Option Nat} (h : Seg g nodes F par prev nxt)
    (e : ∀ i ∈ F.ids, nodes'[i]? = nodes[i]?) : Seg g nodes' F par prev nxt := by
  induction F generalizing par prev nxt with
  | nil => trivial
  | cons x k r ihk ihr =>
    obtain ⟨⟨l, hl, hx⟩, hk, hr⟩ := h
    refine ⟨⟨l, hl, ?_⟩, ihk hk ?_, ihr hr ?_⟩
    · rw [e x.id (by simp)]; exact hx
    · intro i hi; exact e i (by simp [hi])
    · intro i hi; exact e i (by simp [hi])

theorem Seg_append {g : Bool} {nodes : List (Links α)} {F G : Forest (Lab α)}
    {par prev nxt : Option Nat} :
    Seg g nodes (F ++ G) par prev nxt ↔
      Seg g nodes F par prev (G.headId.or nxt) ∧ Seg g nodes G par (F.lastId.or prev) nxt := by
  induction F generalizing prev with
  | nil => simp
  | cons x k r _ ihr =>
    rw [cons_append, Seg_cons, Seg_cons, ihr, headId_append, lastId_cons]
    have h1 : (r.headId.or G.headId).or nxt = r.headId.or (G.headId.or nxt) := by
      cases r.headId <;> rfl
    have h2 : (r.lastId.or (some x.id)).or prev = r.lastId.or (some x.id) := by
      cases r.lastId <;> rfl
    rw [h1, h2]
    constructor
    · rintro ⟨a, b, c, d⟩; exact ⟨⟨a, b, c⟩, d⟩
    · rintro ⟨⟨a, b, c⟩, d⟩; exact ⟨a, b, c, d⟩

/-- Change what follows the run: set `next` of its last element. -/
theorem Seg.setNext {g : Bool} {nodes nodes' : List (Links α)} {F : Forest (Lab α)}
    {par prev nxt nxt' : Option Nat} (h : Seg g nodes F par prev nxt) (nd : F.ids.Nodup)
    (e : ∀ i ∈ F.ids, some i ≠ F.lastId → nodes'[i]? = nodes[i]?)
    (e' : ∀ i, F.lastId = some i →
      nodes'[i]? = (nodes[i]?).map (fun l => { l with next := nxt' })) :
    Seg g nodes' F par prev nxt' := by
  induction F generalizing par prev nxt with
  | nil => trivial
  | cons x k r ihk ihr =>
    obtain ⟨⟨l, hl, hx⟩, hk, hr⟩ := h
    have nd' : x.id ∉ k.ids ∧ x.id ∉ r.ids ∧ k.ids.Nodup ∧ r.ids.Nodup ∧
        ∀ i ∈ k.ids, i ∉ r.ids := by
      rw [ids_cons, List.nodup_cons, List.mem_append, List.nodup_append] at nd
      obtain ⟨h1, h2, h3, h4⟩ := nd
      exact ⟨fun h => h1 (Or.inl h), fun h => h1 (Or.inr h), h2, h3,
        fun i hi hr => h4 i hi i hr rfl⟩
    obtain ⟨n1, n2, n3, n4, n5⟩ := nd'
    have lastNe : ∀ i ∈ k.ids, some i ≠ (cons x k r).lastId := by
      intro i hi he
      rw [lastId_cons] at he
      cases hrl : r.lastId with
      | none => rw [hrl] at he; simp at he; exact n1 (he ▸ hi)
      | some j => rw [hrl] at he; simp at he; exact n5 i hi (he ▸ lastId_mem hrl)
    refine ⟨⟨l, hl, ?_⟩, hk.congr ?_, ?_⟩
    · cases r with
      | nil =>
        rw [e' x.id (by simp), hx]; simp [mkLinks]
      | cons y k' r' =>
        rw [e x.id (by simp), hx]
        · simp
        · intro he
          rw [lastId_cons] at he
          obtain ⟨j, hj⟩ := lastId_isSome (F := cons y k' r') (by simp)
          rw [hj] at he; simp at he
          exact n2 (he ▸ lastId_mem hj)
    · intro i hi; exact e i (by simp [hi]) (lastNe i hi)
    · refine ihr hr n4 ?_ ?_
      · intro i hi hne
        apply e i (by simp [hi])
        rw [lastId_cons]
        cases hrl : r.lastId with
        | none =>
          have : r = Forest.nil := lastId_eq_none.1 hrl
          subst this; simp at hi
        | some j => rw [hrl] at hne; simpa using hne
      · intro i hi
        apply e' i; rw [lastId_cons, hi]; rfl

/-- Give every element of a run a new parent. -/
theorem Seg.setParent {g : Bool} {nodes nodes' : List (Links α)} {F : Forest (Lab α)}
    {par par' prev nxt : Option Nat} (h : Seg g nodes F par prev nxt) (nd : F.ids.Nodup)
    (e : ∀ i ∈ F.ids, i ∉ F.topIds → nodes'[i]? = nodes[i]?)
    (e' : ∀ i ∈ F.topIds, nodes'[i]? = (nodes[i]?).map (fun l => { l with parent := par' })) :
    Seg g nodes' F par' prev nxt := by
  induction F generalizing par prev nxt with
  | nil => trivial
  | cons x k r ihk ihr =>
    obtain ⟨⟨l, hl, hx⟩, hk, hr⟩ := h
    rw [ids_cons, List.nodup_cons, List.mem_append, List.nodup_append] at nd
    obtain ⟨h1, h2, h3, h4⟩ := nd
    refine ⟨⟨l, hl, ?_⟩, hk.congr ?_, ihr hr h3 ?_ ?_⟩
    · rw [e' x.id (by simp), hx]; simp [mkLinks]
    · intro i hi
      apply e i (by simp [hi])
      simp only [topIds_cons, List.mem_cons, not_or]
      exact ⟨fun he => h1 (Or.inl (he ▸ hi)), fun hm => h4 i hi i (mem_ids_of_mem_topIds hm) rfl⟩
    · intro i hi hne
      apply e i (by simp [hi])
      simp only [topIds_cons, List.mem_cons, not_or]
      exact ⟨fun he => h1 (Or.inr (he ▸ hi)), hne⟩
    · intro i hi; exact e' i (by simp [hi])

/-- Change what precedes the run: set `prev` of its first element. -/
theorem Seg.setPrev {g : Bool} {nodes nodes' : List (Links α)} {F : Forest (Lab α)}
    {par prev prev' nxt : Option Nat} (h : Seg g nodes F par prev nxt) (nd : F.ids.Nodup)
    (e : ∀ i ∈ F.ids, some i ≠ F.headId → nodes'[i]? = nodes[i]?)
    (e' : ∀ i, F.headId = some i →
      nodes'[i]? = (nodes[i]?).map (fun l => { l with prev := prev' })) :
    Seg g nodes' F par prev' nxt := by
  cases F with
  | nil => trivial
  | cons x k r =>
    obtain ⟨⟨l, hl, hx⟩, hk, hr⟩ := h
    rw [ids_cons, List.nodup_cons, List.mem_append] at nd
    refine ⟨⟨l, hl, ?_⟩, hk.congr ?_, hr.congr ?_⟩
    · rw [e' x.id (by simp), hx]; simp [mkLinks]
    · intro i hi
      apply e i (by simp [hi])
      simp only [headId_cons, ne_eq, Option.some.injEq]
      rintro rfl; exact nd.1 (Or.inl hi)
    · intro i hi
      apply e i (by simp [hi])
      simp only [headId_cons, ne_eq, Option.some.injEq]
      rintro rfl; exact nd.1 (Or.inr hi)

/-- Every element of the run is in the list. -/
theorem Seg.lookup {g : Bool} {nodes : List (Links α)} {F : Forest (Lab α)}
    {par prev nxt : Option Nat} (h : Seg g nodes F par prev nxt) {x : Lab α}
    (hx : x ∈ F.preorder) : ∃ l, nodes[x.id]? = some l ∧ l.data = x.data ∧ l.span = x.span := by
  induction F generalizing par prev nxt with
  | nil => simp at hx
  | cons y k r ihk ihr =>
    obtain ⟨⟨l, _, hy⟩, hk, hr⟩ := h
    simp only [preorder_cons, List.mem_cons, List.mem_append] at hx
    rcases hx with rfl | hx | hx
    · exact ⟨_, hy, rfl, rfl⟩
    · exact ihk hk hx
    · exact ihr hr hx

/-- The links of the open nodes, innermost first. `h` and `L` say what the first and last child of
the innermost one are. Children have larger ids than the open node they are in. -/
def RepCtx (g : Bool) (nodes : List (Links α)) (tfirst tlast : Option Nat) :
    List (Lab α × Forest (Lab α)) → (h : Option Nat) → (L : Option Nat → Prop) → Prop
  | [], h, L => tfirst = h ∧ L tlast
  | (x, left) :: st, h, L =>
    (∃ l, (L l ∧ ∀ j, h = some j → x.id < j) ∧
      nodes[x.id]? = some (mkLinks x (st.head?.map (·.1.id)) left.lastId none h l)) ∧
    Seg g nodes left (st.head?.map (·.1.id)) none (some x.id) ∧
    RepCtx g nodes tfirst tlast st (left.headId.or (some x.id)) (· = some x.id)

/-- The ids of the open nodes and of their earlier siblings. -/
def stackIds : List (Lab α × Forest (Lab α)) → List Nat
  | [] => []
  | (x, left) :: st => x.id :: (left.ids ++ stackIds st)

theorem RepCtx.congr {g : Bool} {nodes nodes' : List (Links α)} {f l : Option Nat}
    {st : List (Lab α × Forest (Lab α))} {h : Option Nat} {L L' : Option Nat → Prop}
    (hr : RepCtx g nodes f l st h L) (hL : ∀ l, L l → L' l)
    (e : ∀ i ∈ stackIds st, nodes'[i]? = nodes[i]?) : RepCtx g nodes' f l st h L' := by
  induction st generalizing h L L' with
  | nil => exact ⟨hr.1, hL _ hr.2⟩
  | cons p st ih =>
    obtain ⟨x, left⟩ := p
    obtain ⟨⟨l, hl, hx⟩, hs, hst⟩ := hr
    refine ⟨⟨l, ⟨hL _ hl.1, hl.2⟩, ?_⟩, hs.congr ?_, ih hst (fun _ h => h) ?_⟩
    · rw [e x.id (by simp [stackIds])]; exact hx
    · intro i hi; exact e i (by simp [stackIds, hi])
    · intro i hi; exact e i (by simp [stackIds, hi])

theorem RepCtx.weaken {g : Bool} {nodes : List (Links α)} {f l : Option Nat}
    {st : List (Lab α × Forest (Lab α))} {h : Option Nat} {L : Option Nat → Prop}
    (hr : RepCtx g nodes f l st h L) : RepCtx false nodes f l st h L := by
  induction st generalizing h L with
  | nil => exact hr
  | cons p st ih =>
    obtain ⟨x, left⟩ := p
    obtain ⟨a, hs, hst⟩ := hr
    exact ⟨a, hs.weaken, ih hst⟩

theorem Seg.mono {g g' : Bool} {nodes : List (Links α)} {F : Forest (Lab α)}
    {par prev nxt : Option Nat} (h : Seg g nodes F par prev nxt) (hg : g' = true → g = true) :
    Seg g' nodes F par prev nxt := by
  cases g' with
  | false => exact h.weaken
  | true => rw [hg rfl] at h; exact h

theorem LastRel.mono {g g' : Bool} {o l : Option Nat} {k : Forest (Lab α)} (h : LastRel g o l k)
    (hg : g' = true → g = true) : LastRel g' o l k := by
  cases g' with
  | false => exact h.weaken
  | true => rw [hg rfl] at h; exact h

theorem RepCtx.mono {g g' : Bool} {nodes : List (Links α)} {f l : Option Nat}
    {st : List (Lab α × Forest (Lab α))} {h : Option Nat} {L : Option Nat → Prop}
    (hr : RepCtx g nodes f l st h L) (hg : g' = true → g = true) :
    RepCtx g' nodes f l st h L := by
  cases g' with
  | false => exact hr.weaken
  | true => rw [hg rfl] at hr; exact hr

/-- Re-parenting loop of `close_at`. -/
theorem restructure_spec {g : Bool} (newId : Nat) (nodes : List (Links α)) (x : Lab α)
    (k r : Forest (Lab α)) (par prev : Option Nat) (fuel : Nat)
    (h : Seg g nodes (.cons x k r) par prev none) (nd : (Forest.cons x k r).ids.Nodup)
    (hf : (Forest.cons x k r).tops.length ≤ fuel) :
    ∃ nodes', restructure newId fuel nodes x.id =
        (nodes', .ok (((Forest.cons x k r).lastId).getD 0,
          ((Forest.cons x k r).last?.map (·.span.stop)).getD 0)) ∧
      nodes'.length = nodes.length ∧
      (∀ i, nodes'[i]? = if i ∈ (Forest.cons x k r).topIds then
        (nodes[i]?).map (fun l => { l with parent := some newId }) else nodes[i]?) := by
  induction fuel generalizing nodes x k r prev with
  | zero => simp at hf
  | succ fuel ih =>
    obtain ⟨⟨l, hl, hx⟩, hk, hr⟩ := h
    rw [ids_cons, List.nodup_cons, List.mem_append, List.nodup_append] at nd
    obtain ⟨h1, h2, h3, h4⟩ := nd
    have hlt : x.id < nodes.length := by
      have := List.getElem?_eq_some_iff.1 hx; exact this.1
    rw [restructure, hx]
    cases r with
    | nil =>
      refine ⟨nodes.set x.id { mkLinks x par prev none k.headId l with parent := some newId },
        by simp [mkLinks, last?, tops], by simp, ?_⟩
      intro i
      by_cases hi : i = x.id
      · subst hi; rw [List.getElem?_set_self hlt, hx]; simp [mkLinks]
      · simp [hi, Ne.symm hi]
    | cons y k' r' =>
      have hr' : Seg g (nodes.set x.id
          { mkLinks x par prev (some y.id) k.headId l with parent := some newId })
          (.cons y k' r') par (some x.id) none := by
        refine hr.congr ?_
        intro i hi
        have : x.id ≠ i := fun he => h1 (Or.inr (he ▸ hi))
        simp [this]
      obtain ⟨nodes', e1, e2, e3⟩ := ih _ y k' r' (some x.id) hr' h3 (by simpa using hf)
      refine ⟨nodes', ?_, by simpa using e2, ?_⟩
      · simp only [mkLinks, headId_cons, Option.some_or] at e1 ⊢
        rw [e1]
        obtain ⟨j, hj⟩ := lastId_isSome (F := Forest.cons y k' r') (by simp)
        have hl2 : (Forest.cons x k (Forest.cons y k' r')).last? =
            (Forest.cons y k' r').last? := by simp [last?, List.getLast?_cons]
        rw [lastId_cons x, hj, hl2]; rfl
      · intro i
        rw [e3 i]
        by_cases hi : i = x.id
        · subst hi
          have : x.id ∉ (Forest.cons y k' r').topIds := fun h => h1 (Or.inr (mem_ids_of_mem_topIds h))
          rw [if_neg this, List.getElem?_set_self hlt, hx]; simp [mkLinks]
        · simp only [topIds_cons, List.mem_cons, hi, false_or]
          rw [List.getElem?_set_ne (Ne.symm hi)]

end Syntree
