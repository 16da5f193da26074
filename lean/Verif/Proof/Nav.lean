import Verif.Proof.Iterate

/-! Children, siblings, ancestors, `find_preceding`. -/

namespace Syntree

variable {α : Type}

open Forest

/-! ## Children -/

theorem children_forward {g : Bool} {nodes : Slice α} (F : Forest (Lab α)) :
    ∀ {par prev : Option Nat} {last : Option Nat}, Seg g nodes F par prev none → F.ids.Nodup →
    (F ≠ .nil → ∃ i, last = some i ∧ i ∈ F.spine.map (·.id)) →
    Yields (Children.next nodes) ⟨F.headId, last⟩ F.topIds := by
  induction F with
  | nil =>
    intro par prev last _ _ _
    exact .done (s' := ⟨none, last⟩) rfl
  | cons x k r _ ihr =>
    intro par prev last h nd hl
    obtain ⟨⟨l, _, hx⟩, _, hr⟩ := h
    obtain ⟨i, rfl, hi⟩ := hl (by simp)
    simp only [ids_cons, List.nodup_cons, List.mem_append, List.nodup_append] at nd
    obtain ⟨hx1, _, nr, _⟩ := nd
    cases r with
    | nil =>
      refine .item (s' := ⟨none, some i⟩) ?_ (.done (s' := ⟨none, some i⟩) rfl)
      simp only [Children.next, headId_cons, hx]
      split <;> simp [mkLinks]
    | cons y k' r' =>
      have hi' : i ∈ (Forest.cons y k' r').spine.map (·.id) := by simpa [spine] using hi
      have hne : x.id ≠ i := by
        rintro rfl
        apply hx1; right
        obtain ⟨z, hz, hz'⟩ := List.mem_map.1 hi'
        rw [← hz']
        exact List.mem_map_of_mem (mem_preorder_of_spine hz)
      have key := ihr hr nr (last := some i) (fun _ => ⟨i, rfl, hi'⟩)
      refine .item (s' := ⟨(Forest.cons y k' r').headId, some i⟩) ?_ key
      simp only [Children.next, headId_cons, hx, hne, ne_eq, not_false_eq_true, if_true, mkLinks]
      simp

theorem Represents.children {g : Bool} {t : Tree α} {F : Forest (Lab α)} (h : Represents g t F) :
    Yields (Children.next t.nodes) t.children F.topIds := by
  unfold Tree.children
  rw [h.first]
  exact children_forward F h.root h.nodup h.last.2.1

theorem Forest.Loc.nodup_kids {F : Forest (Lab α)} {anc : List (Lab α)}
    {left kids right : Forest (Lab α)} {x : Lab α} (hl : Loc F anc left x kids right)
    (nd : F.ids.Nodup) : x.id ∉ kids.ids ∧ kids.ids.Nodup := by
  obtain ⟨pre, post, e⟩ := hl.split
  rw [ids, e] at nd
  simp only [List.map_append, List.map_cons] at nd
  have := (List.nodup_append.1 (List.nodup_append.1 nd).1).2.1
  exact ⟨(List.nodup_cons.1 this).1, (List.nodup_cons.1 this).2⟩

theorem Forest.Loc.nodup_sibs {F : Forest (Lab α)} {anc : List (Lab α)}
    {left kids right : Forest (Lab α)} {x : Lab α} (hl : Loc F anc left x kids right)
    (nd : F.ids.Nodup) : (left ++ .cons x kids right).ids.Nodup := by
  cases hl with
  | root e => rw [← e]; exact nd
  | child h e => rw [← e]; exact (h.nodup_kids nd).2

theorem Represents.node_children {g : Bool} {t : Tree α} {F : Forest (Lab α)}
    (h : Represents g t F) {anc : List (Lab α)} {left kids right : Forest (Lab α)} {x : Lab α}
    (hl : Loc F anc left x kids right) :
    Yields (Children.next t.nodes) (nodeChildren t.nodes x.id) kids.topIds := by
  obtain ⟨l, hl', hx⟩ := hl.links h.root
  simp only [nodeChildren, hx, mkLinks]
  exact children_forward kids (hl.kids h.root) (hl.nodup_kids h.nodup).2 hl'.2.1

/-! ### Double-ended -/

theorem Seg.split3 {g : Bool} {nodes : Slice α} {A M B : Forest (Lab α)} {par : Option Nat}
    (h : Seg g nodes (A ++ (M ++ B)) par none none) :
    Seg g nodes M par A.lastId B.headId := by
  have := (Seg_append.1 (Seg_append.1 h).2).1
  simpa using this

/-- Split off the last element. -/
theorem Forest.exists_snoc {β : Type} (F : Forest β) (h : F ≠ .nil) :
    ∃ G x k, F = G ++ Forest.single x k := by
  induction F with
  | nil => exact absurd rfl h
  | cons x k r _ ih =>
    by_cases hr : r = .nil
    · subst hr; exact ⟨.nil, x, k, rfl⟩
    · obtain ⟨G, y, k', e⟩ := ih hr
      exact ⟨.cons x k G, y, k', by rw [e]; rfl⟩

/-- A state of `Children` that has handed out everything but `M`. -/
def EndsState (M : Forest (Lab α)) (c : Children) : Prop :=
  if M.isNil then c.first = none ∨ c.last = none
  else c.first = M.headId ∧ c.last = M.lastId

theorem children_next {g : Bool} {nodes : Slice α} {A M B : Forest (Lab α)} {par : Option Nat}
    (h : Seg g nodes (A ++ (M ++ B)) par none none) (nd : M.ids.Nodup) {c : Children}
    (hc : EndsState M c) :
    (Children.next nodes c).2 = Got.ofOption M.topIds.head? ∧
      ∃ A' M', A' ++ (M' ++ B) = A ++ (M ++ B) ∧ M'.topIds = M.topIds.tail ∧ M'.ids.Nodup ∧
      EndsState M' (Children.next nodes c).1 := by
  cases M with
  | nil =>
    simp only [EndsState, isNil_nil, if_true] at hc
    have : (Children.next nodes c).2 = .none ∧
        ((Children.next nodes c).1.first = none ∨ (Children.next nodes c).1.last = none) := by
      unfold Children.next
      cases hf : c.first with
      | none => exact ⟨rfl, .inl hf⟩
      | some f =>
        have hl : c.last = none := by simpa [hf] using hc
        simp only [hl]
        cases nodes[f]? with
        | none => exact ⟨rfl, .inl rfl⟩
        | some l => exact ⟨rfl, .inl rfl⟩
    refine ⟨this.1, A, .nil, rfl, rfl, by simp, ?_⟩
    simp only [EndsState, isNil_nil, if_true]; exact this.2
  | cons x k r =>
    have hs := h.split3
    obtain ⟨⟨l, _, hx⟩, _, _⟩ := hs
    simp only [EndsState, isNil_cons, Bool.false_eq_true, if_false, headId_cons] at hc
    obtain ⟨hf, hl⟩ := hc
    have nd' := nd
    simp only [ids_cons, List.nodup_cons, List.mem_append, List.nodup_append] at nd'
    have hr : A ++ Forest.single x k ++ (r ++ B) = A ++ (Forest.cons x k r ++ B) := by
      rw [append_assoc]; rfl
    cases r with
    | nil =>
      rw [lastId_single] at hl
      have hn : Children.next nodes c = (⟨none, some x.id⟩, .some x.id) := by
        obtain ⟨cf, cl⟩ := c
        simp only at hf hl
        subst hf; subst hl
        simp [Children.next, hx]
      refine ⟨by rw [hn]; rfl, A ++ Forest.single x k, .nil, by rw [← hr], rfl, by simp, ?_⟩
      rw [hn]; simp [EndsState]
    | cons y k' r' =>
      obtain ⟨j, hj⟩ := lastId_isSome (F := Forest.cons y k' r') (by simp)
      rw [lastId_cons, hj] at hl
      have hne : x.id ≠ j := by
        rintro rfl
        exact nd'.1 (.inr (lastId_mem hj))
      have hn : Children.next nodes c = (⟨some y.id, some j⟩, .some x.id) := by
        obtain ⟨cf, cl⟩ := c
        simp only [Option.some_or] at hf hl
        subst hf; subst hl
        simp [Children.next, hx, hne, mkLinks]
      refine ⟨by rw [hn]; rfl, A ++ Forest.single x k, Forest.cons y k' r', hr, rfl, nd'.2.2.1, ?_⟩
      rw [hn]; simp [EndsState, hj]

theorem children_next_back {g : Bool} {nodes : Slice α} {A M B : Forest (Lab α)}
    {par : Option Nat} (h : Seg g nodes (A ++ (M ++ B)) par none none) (nd : M.ids.Nodup)
    {c : Children} (hc : EndsState M c) :
    (Children.nextBack nodes c).2 = Got.ofOption M.topIds.getLast? ∧
      ∃ M' B', A ++ (M' ++ B') = A ++ (M ++ B) ∧ M'.topIds = M.topIds.dropLast ∧ M'.ids.Nodup ∧
      EndsState M' (Children.nextBack nodes c).1 := by
  by_cases hM : M = .nil
  · subst hM
    simp only [EndsState, isNil_nil, if_true] at hc
    have : (Children.nextBack nodes c).2 = .none ∧
        ((Children.nextBack nodes c).1.first = none ∨
          (Children.nextBack nodes c).1.last = none) := by
      unfold Children.nextBack
      cases hl : c.last with
      | none => exact ⟨rfl, .inr hl⟩
      | some f =>
        have hf : c.first = none := by simpa [hl] using hc
        simp only [hf]
        cases nodes[f]? with
        | none => exact ⟨rfl, .inr rfl⟩
        | some l => exact ⟨rfl, .inr rfl⟩
    refine ⟨this.1, .nil, B, rfl, rfl, by simp, ?_⟩
    simp only [EndsState, isNil_nil, if_true]; exact this.2
  · obtain ⟨G, x, k, rfl⟩ := exists_snoc M hM
    have hs := h.split3
    have hs2 := (Seg_append.1 hs).2
    obtain ⟨⟨l, _, hx⟩, _, _⟩ := hs2
    have hnil : (G ++ Forest.single x k).isNil = false := by cases G <;> rfl
    simp only [EndsState, hnil, Bool.false_eq_true, if_false, lastId_append, lastId_single,
      Option.some_or] at hc
    obtain ⟨hf, hl⟩ := hc
    have nd' := nd
    simp only [ids_append, List.nodup_append] at nd'
    have hr : A ++ (G ++ (Forest.single x k ++ B)) = A ++ (G ++ Forest.single x k ++ B) := by
      rw [append_assoc]
    have htop : (G ++ Forest.single x k).topIds = G.topIds ++ [x.id] := by simp
    by_cases hG : G = .nil
    · subst hG
      have hn : Children.nextBack nodes c = (⟨some x.id, none⟩, .some x.id) := by
        obtain ⟨cf, cl⟩ := c
        simp only [nil_append, headId_cons] at hf hl
        subst hf; subst hl
        simp [Children.nextBack, hx]
      refine ⟨by rw [hn, htop]; simp [Got.ofOption], .nil, Forest.single x k ++ B, hr, by simp,
        by simp, ?_⟩
      rw [hn]; simp [EndsState]
    · obtain ⟨j, hj⟩ := lastId_isSome hG
      obtain ⟨i, hi⟩ : ∃ i, G.headId = some i := by
        cases G with
        | nil => exact absurd rfl hG
        | cons y _ _ => exact ⟨y.id, rfl⟩
      have hne : x.id ≠ i := by
        rintro rfl
        exact nd'.2.2 _ (headId_mem hi) _ (by simp) rfl
      have hn : Children.nextBack nodes c = (⟨some i, some j⟩, .some x.id) := by
        obtain ⟨cf, cl⟩ := c
        simp only [headId_append, hi, Option.some_or] at hf hl
        subst hf; subst hl
        simp [Children.nextBack, hx, hne, mkLinks, hj]
      refine ⟨by rw [hn, htop]; simp [Got.ofOption], G, Forest.single x k ++ B, hr,
        by rw [htop]; simp, nd'.1, ?_⟩
      rw [hn]
      have : G.isNil = false := by cases G with
        | nil => exact absurd rfl hG
        | cons => rfl
      simp [EndsState, this, hi, hj]

theorem children_ends {g : Bool} {nodes : Slice α} (bs : List Bool) :
    ∀ {A M B : Forest (Lab α)} {par : Option Nat} {c : Children},
    Seg g nodes (A ++ (M ++ B)) par none none → M.ids.Nodup → EndsState M c →
    runEnds (Children.next nodes) (Children.nextBack nodes) bs c =
      (takeEnds bs M.topIds).map Got.ofOption := by
  induction bs with
  | nil => intros; rfl
  | cons b bs ih =>
    intro A M B par c h nd hc
    cases b with
    | true =>
      obtain ⟨h1, A', M', h2, h3, h4, h5⟩ := children_next h nd hc
      simp only [runEnds, takeEnds, if_true, List.map_cons, h1]
      rw [ih (h2 ▸ h) h4 h5, h3]
    | false =>
      obtain ⟨h1, M', B', h2, h3, h4, h5⟩ := children_next_back h nd hc
      simp only [runEnds, takeEnds, Bool.false_eq_true, if_false, List.map_cons, h1]
      rw [ih (h2 ▸ h) h4 h5, h3]

theorem children_ends_whole {g : Bool} {nodes : Slice α} {F : Forest (Lab α)} {par : Option Nat}
    (h : Seg g nodes F par none none) (nd : F.ids.Nodup) (bs : List Bool) :
    runEnds (Children.next nodes) (Children.nextBack nodes) bs ⟨F.headId, F.lastId⟩ =
      (takeEnds bs F.topIds).map Got.ofOption := by
  refine children_ends (A := .nil) (B := .nil) (par := par) bs (by simpa using h) nd ?_
  unfold EndsState
  split
  · rename_i hn
    cases F with
    | nil => exact .inl rfl
    | cons => simp at hn
  · exact ⟨rfl, rfl⟩

/-! ## Links -/

theorem Represents.nodeAt_mem {g : Bool} {t : Tree α} {F : Forest (Lab α)} (h : Represents g t F)
    {i : Nat} (hi : i ∈ F.ids) : nodeAt t.nodes i = some i := h.root.get_of_topIds hi

theorem Forest.Loc.anc_mem {β : Type} {F : Forest β} {anc : List β} {left kids right : Forest β}
    {x : β} (hl : Loc F anc left x kids right) : ∀ a ∈ anc, a ∈ F.preorder := by
  induction hl with
  | root _ => simp
  | child hp _ ih =>
    intro a ha
    rcases List.mem_cons.1 ha with rfl | ha
    · exact hp.mem
    · exact ih a ha

theorem Forest.Loc.sibs_sub {β : Type} {F : Forest β} {anc : List β} {left kids right : Forest β}
    {x : β} (hl : Loc F anc left x kids right) {y : β}
    (hy : y ∈ (left ++ .cons x kids right).preorder) : y ∈ F.preorder := by
  cases hl with
  | root e => rwa [e]
  | child hp e =>
    obtain ⟨pre, post, e'⟩ := hp.split
    rw [← e] at hy
    rw [e']; simp [hy]

theorem Represents.follow_link {g : Bool} {t : Tree α} {F : Forest (Lab α)} (h : Represents g t F)
    {i : Nat} {l : Links α} (hi : t.nodes[i]? = some l) (f : Links α → Option Nat)
    (hf : ∀ j, f l = some j → j ∈ F.ids) : follow t.nodes i f = f l := by
  unfold follow
  rw [hi]
  simp only
  cases hj : f l with
  | none => rfl
  | some j => exact h.nodeAt_mem (hf j hj)

section loc
variable {g : Bool} {t : Tree α} {F : Forest (Lab α)} {anc : List (Lab α)}
  {left kids right : Forest (Lab α)} {x : Lab α}

theorem Represents.node_parent (h : Represents g t F) (hl : Loc F anc left x kids right) :
    nodeParent t.nodes x.id = anc.head?.map (·.id) := by
  obtain ⟨l, _, hx⟩ := hl.links h.root
  refine (h.follow_link hx (·.parent) ?_).trans rfl
  intro j hj
  cases anc with
  | nil => simp [mkLinks] at hj
  | cons p anc =>
    simp only [mkLinks, List.head?_cons, Option.map_some, Option.some.injEq] at hj
    subst hj
    exact List.mem_map_of_mem (hl.anc_mem p (by simp))

theorem Represents.node_prev (h : Represents g t F) (hl : Loc F anc left x kids right) :
    nodePrev t.nodes x.id = left.lastId := by
  obtain ⟨l, _, hx⟩ := hl.links h.root
  refine (h.follow_link hx (·.prev) ?_).trans rfl
  intro j hj
  obtain ⟨y, hy, rfl⟩ := List.mem_map.1 (lastId_mem (F := left) hj)
  refine List.mem_map_of_mem (hl.sibs_sub ?_)
  rw [preorder_append]; exact List.mem_append_left _ hy

theorem Represents.node_next (h : Represents g t F) (hl : Loc F anc left x kids right) :
    nodeNext t.nodes x.id = right.headId := by
  obtain ⟨l, _, hx⟩ := hl.links h.root
  refine (h.follow_link hx (·.next) ?_).trans rfl
  intro j hj
  obtain ⟨y, hy, rfl⟩ := List.mem_map.1 (headId_mem (F := right) hj)
  refine List.mem_map_of_mem (hl.sibs_sub ?_)
  simp [hy]

theorem Represents.node_first (h : Represents g t F) (hl : Loc F anc left x kids right) :
    nodeFirst t.nodes x.id = kids.headId := by
  obtain ⟨l, _, hx⟩ := hl.links h.root
  refine (h.follow_link hx (·.first) ?_).trans rfl
  intro j hj
  obtain ⟨y, hy, rfl⟩ := List.mem_map.1 (headId_mem (F := kids) hj)
  refine List.mem_map_of_mem (hl.sibs_sub ?_)
  simp [hy]

/-- The stored last child is on the right spine of the children; exact with `g`. -/
theorem Represents.node_last (h : Represents g t F) (hl : Loc F anc left x kids right) :
    LastRel g (some x.id) (nodeLast t.nodes x.id) kids := by
  obtain ⟨l, hlr, hx⟩ := hl.links h.root
  have : nodeLast t.nodes x.id = l := by
    refine (h.follow_link hx (·.last) ?_).trans rfl
    intro j hj
    simp only [mkLinks] at hj
    have hk : kids ≠ .nil := by
      intro hk
      rw [hlr.1 hk] at hj; simp at hj
    obtain ⟨i, hi, hm⟩ := hlr.2.1 hk
    rw [hi] at hj
    simp only [Option.some.injEq] at hj
    subst hj
    obtain ⟨y, hy, rfl⟩ := List.mem_map.1 hm
    refine List.mem_map_of_mem (hl.sibs_sub ?_)
    simp [mem_preorder_of_spine hy]
  rw [this]; exact hlr

theorem Represents.node_get (h : Represents g t F) (hl : Loc F anc left x kids right) :
    t.get x.id = some x.id ∧ nodeValue t.nodes x.id = some x.data ∧
    nodeSpan t.nodes x.id = some x.span ∧ hasChildren t.nodes x.id = ! kids.isNil ∧
    nodeIsEmpty t.nodes x.id = kids.isNil := by
  obtain ⟨l, hlr, hx⟩ := hl.links h.root
  refine ⟨h.nodeAt_mem (List.mem_map_of_mem hl.mem), ?_, ?_, ?_, ?_⟩
  · simp [nodeValue, hx, mkLinks]
  · simp [nodeSpan, hx, mkLinks]
  · simp only [hasChildren, hx, mkLinks]; cases kids <;> rfl
  · simp only [nodeIsEmpty, hx, mkLinks]; cases kids <;> rfl

theorem Represents.tree_first (h : Represents g t F) : t.firstNode = F.headId := by
  unfold Tree.firstNode
  rw [h.first]
  cases hf : F.headId with
  | none => rfl
  | some i => exact h.nodeAt_mem (headId_mem hf)

theorem Represents.tree_last (h : Represents g t F) : LastRel g none t.lastNode F := by
  have hl := h.last
  have : t.lastNode = t.last := by
    unfold Tree.lastNode
    cases hf : t.last with
    | none => rfl
    | some i =>
      refine h.nodeAt_mem ?_
      have hk : F ≠ .nil := by
        intro hk
        rw [hl.1 hk] at hf; simp at hf
      obtain ⟨i', hi, hm⟩ := hl.2.1 hk
      rw [hi] at hf
      simp only [Option.some.injEq] at hf
      subst hf
      obtain ⟨y, hy, rfl⟩ := List.mem_map.1 hm
      exact List.mem_map_of_mem (mem_preorder_of_spine hy)
  rw [this]; exact hl

/-! ## Siblings and ancestors -/

theorem Represents.siblings_aux (h : Represents g t F) (right : Forest (Lab α)) :
    ∀ {left kids : Forest (Lab α)} {x : Lab α}, Loc F anc left x kids right →
    Yields (Siblings.next t.nodes) (some x.id) (x.id :: right.topIds) := by
  induction right with
  | nil =>
    intro left kids x hl
    refine .item (s' := none) ?_ (.done (s' := none) rfl)
    simp only [Siblings.next]
    rw [h.node_next hl]; rfl
  | cons y k r _ ihr =>
    intro left kids x hl
    refine .item (s' := some y.id) ?_ (ihr (hl.shift (left' := left ++ .single x kids)
      (by rw [append_assoc]; rfl)))
    simp only [Siblings.next]
    rw [h.node_next hl]; rfl

theorem Represents.siblings (h : Represents g t F) (hl : Loc F anc left x kids right) :
    Yields (Siblings.next t.nodes) (nodeSiblings x.id) (x.id :: right.topIds) :=
  h.siblings_aux right hl

theorem Represents.ancestors (h : Represents g t F) (hl : Loc F anc left x kids right) :
    Yields (Ancestors.next t.nodes) (nodeAncestors x.id) (x.id :: anc.map (·.id)) := by
  unfold nodeAncestors
  induction anc generalizing left x kids right with
  | nil =>
    refine .item (s' := none) ?_ (.done (s' := none) rfl)
    simp only [Ancestors.next]
    rw [h.node_parent hl]; rfl
  | cons p anc ih =>
    obtain ⟨l, r, hp⟩ := hl.parent
    refine .item (s' := some p.id) ?_ (ih hp)
    simp only [Ancestors.next]
    rw [h.node_parent hl]; rfl

end loc

/-! ## `find_preceding` -/

theorem Forest.Loc.depth_lt {β : Type} {F : Forest β} {anc : List β} {left kids right : Forest β}
    {x : β} (hl : Loc F anc left x kids right) :
    anc.length + (Forest.cons x kids right).size ≤ F.size := by
  induction hl with
  | root e => rw [e, size_append]; simp
  | @child anc l p k r left x kids right hp e ih =>
    have h1 : k.size = left.size + (Forest.cons x kids right).size := by rw [e, size_append]
    simp only [size, List.length_cons] at *
    omega

theorem Forest.Loc.trans {β : Type} {F : Forest β} {anc : List β} {left kids right : Forest β}
    {x : β} (hl : Loc F anc left x kids right) {anc' : List β} {l' k' r' : Forest β} {y : β}
    (hy : Loc kids anc' l' y k' r') : Loc F (anc' ++ x :: anc) l' y k' r' := by
  induction hy with
  | root e => exact .child hl e
  | child _ e ih => exact .child ih e

/-- `Descends last p b m`: `m` is reached from `b` by going to the last child again and again while
that last child satisfies `p`. -/
inductive Descends (last : Nat → Option Nat) (p : Nat → Bool) : Nat → Nat → Prop where
  | stop {b : Nat} : (∀ c, last b = some c → p c = false) → Descends last p b b
  | down {b c m : Nat} : last b = some c → p c = true → Descends last p c m → Descends last p b m

theorem Descends.pred {last : Nat → Option Nat} {p : Nat → Bool} {b m : Nat}
    (h : Descends last p b m) (hb : p b = true) : p m = true := by
  induction h with
  | stop _ => exact hb
  | down _ hc _ ih => exact ih hc

theorem Represents.descend {g : Bool} {t : Tree α} {F : Forest (Lab α)} (h : Represents g t F)
    (p : Nat → Bool) (fuel : Nat) :
    ∀ {anc : List (Lab α)} {left kids right : Forest (Lab α)} {x : Lab α},
    Loc F anc left x kids right → kids.size < fuel →
    ∃ m, findPrecedingDown t.nodes p fuel x.id = .some m ∧
      Descends (nodeLast t.nodes) p x.id m := by
  induction fuel with
  | zero => intro _ _ _ _ _ _ hf; simp at hf
  | succ fuel ih =>
    intro anc left kids right x hl hf
    unfold findPrecedingDown
    have hlr := h.node_last hl
    cases hlast : nodeLast t.nodes x.id with
    | none => exact ⟨x.id, rfl, .stop (by simp [hlast])⟩
    | some c =>
      simp only
      cases hp : p c with
      | false => exact ⟨x.id, rfl, .stop (by rw [hlast]; simp [hp])⟩
      | true =>
        have hk : kids ≠ .nil := by
          intro hk
          rw [hlr.1 hk] at hlast; simp at hlast
        obtain ⟨i, hi, hm⟩ := hlr.2.1 hk
        rw [hlast] at hi
        simp only [Option.some.injEq] at hi
        subst hi
        obtain ⟨y, hy, rfl⟩ := List.mem_map.1 hm
        obtain ⟨anc', l', k', r', hy'⟩ := Loc.exists_of_mem (mem_preorder_of_spine hy)
        have hsz := hy'.depth_lt
        simp only [Forest.size] at hsz
        obtain ⟨m, h1, h2⟩ := ih (hl.trans hy') (by omega)
        exact ⟨m, by simp [h1], .down hlast hp h2⟩

theorem Represents.ascend {g : Bool} {t : Tree α} {F : Forest (Lab α)} (h : Represents g t F)
    (p : Nat → Bool) (anc : List (Lab α)) :
    ∀ {left kids right : Forest (Lab α)} {x : Lab α} {fuel : Nat},
    Loc F anc left x kids right → anc.length < fuel →
    (findPrecedingUp t.nodes p fuel x.id = .none ∧
      ∀ a ∈ x.id :: anc.map (·.id), ∀ b, nodePrev t.nodes a = some b → p b = false) ∨
    (∃ pre a post b, x.id :: anc.map (·.id) = pre ++ a :: post ∧
      (∀ c ∈ pre, ∀ b, nodePrev t.nodes c = some b → p b = false) ∧
      nodePrev t.nodes a = some b ∧ p b = true ∧
      findPrecedingUp t.nodes p fuel x.id = .some b) := by
  induction anc with
  | nil =>
    intro left kids right x fuel hl hf
    cases fuel with
    | zero => simp at hf
    | succ fuel =>
      have hpar : nodeParent t.nodes x.id = none := h.node_parent hl
      unfold findPrecedingUp
      rw [hpar]
      cases hprev : nodePrev t.nodes x.id with
      | none => left; simp [hprev]
      | some b =>
        cases hp : p b with
        | true => right; exact ⟨[], x.id, [], b, by simp, by simp, hprev, hp, by simp [hp]⟩
        | false => left; simp [hp, hprev]
  | cons q anc ih =>
    intro left kids right x fuel hl hf
    cases fuel with
    | zero => simp at hf
    | succ fuel =>
      have hpar : nodeParent t.nodes x.id = some q.id := h.node_parent hl
      obtain ⟨l, r, hq⟩ := hl.parent
      have key := ih hq (fuel := fuel) (by simpa using hf)
      unfold findPrecedingUp
      rw [hpar]
      have goUp : (∀ b, nodePrev t.nodes x.id = some b → p b = false) →
          (findPrecedingUp t.nodes p fuel q.id = .none ∧
            ∀ a ∈ x.id :: (q :: anc).map (·.id), ∀ b, nodePrev t.nodes a = some b → p b = false) ∨
          (∃ pre a post b, x.id :: (q :: anc).map (·.id) = pre ++ a :: post ∧
            (∀ c ∈ pre, ∀ b, nodePrev t.nodes c = some b → p b = false) ∧
            nodePrev t.nodes a = some b ∧ p b = true ∧
            findPrecedingUp t.nodes p fuel q.id = .some b) := by
        intro hno
        rcases key with ⟨h1, h2⟩ | ⟨pre, a, post, b, h1, h2, h3, h4, h5⟩
        · left
          refine ⟨h1, ?_⟩
          intro a ha
          rcases List.mem_cons.1 ha with rfl | ha
          · exact hno
          · exact h2 a ha
        · right
          refine ⟨x.id :: pre, a, post, b, by rw [List.map_cons, h1]; rfl, ?_, h3, h4, h5⟩
          intro c hc
          rcases List.mem_cons.1 hc with rfl | hc
          · exact hno
          · exact h2 c hc
      cases hprev : nodePrev t.nodes x.id with
      | none => exact goUp (by simp [hprev])
      | some b =>
        cases hp : p b with
        | true => right; exact ⟨[], x.id, _, b, rfl, by simp, hprev, hp, by simp [hp]⟩
        | false =>
          have := goUp (by rw [hprev]; simp [hp])
          simpa [hp] using this

end Syntree
