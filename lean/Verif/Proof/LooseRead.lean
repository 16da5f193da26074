import Verif.Proof.Loose
import Verif.Proof.Listing

/-! Reading a tree of which less is known about the stored last children. -/

namespace Syntree

variable {α : Type}

open Forest

/-! ## Most functions do not look at the stored last children -/

def Links.noLast (l : Links α) : Links α := { l with last := none }

theorem walkEvents_noLast (nodes : Slice α) :
    WalkEvents.next (nodes.map Links.noLast) = WalkEvents.next nodes := by
  funext w
  unfold WalkEvents.next
  cases w.node with
  | none => rfl
  | some p =>
    obtain ⟨n, e⟩ := p
    simp only [List.getElem?_map]
    cases nodes[n]? <;> rfl

theorem walk_noLast (nodes : Slice α) :
    Walk.next (nodes.map Links.noLast) = Walk.next nodes := by
  have key : ∀ f, Walk.nextLoop (nodes.map Links.noLast) f = Walk.nextLoop nodes f := by
    intro f
    induction f with
    | zero => rfl
    | succ f ih => funext w; simp only [Walk.nextLoop, walkEvents_noLast, ih]
  unfold Walk.next
  rw [List.length_map, key]

theorem withDepths_noLast (nodes : Slice α) :
    WithDepths.next (nodes.map Links.noLast) = WithDepths.next nodes := by
  have key : ∀ f, WithDepths.nextLoop (nodes.map Links.noLast) f = WithDepths.nextLoop nodes f := by
    intro f
    induction f with
    | zero => rfl
    | succ f ih => funext w; simp only [WithDepths.nextLoop, walkEvents_noLast, ih]
  unfold WithDepths.next
  rw [List.length_map, key]

theorem inside_noLast (nodes : Slice α) :
    Inside.next (nodes.map Links.noLast) = Inside.next nodes := by
  have key : ∀ f, Inside.nextLoop (nodes.map Links.noLast) f = Inside.nextLoop nodes f := by
    intro f
    induction f with
    | zero => rfl
    | succ f ih => funext w; simp only [Inside.nextLoop, walkEvents_noLast, ih]
  unfold Inside.next
  rw [List.length_map, key]

theorem nodeAt_noLast (nodes : Slice α) (i : Nat) :
    nodeAt (nodes.map Links.noLast) i = nodeAt nodes i := by
  unfold nodeAt
  rw [List.getElem?_map]
  cases nodes[i]? <;> rfl

theorem follow_noLast (nodes : Slice α) (i : Nat) (f : Links α → Option Nat)
    (hf : ∀ l, f (Links.noLast l) = f l) :
    follow (nodes.map Links.noLast) i f = follow nodes i f := by
  unfold follow
  rw [List.getElem?_map]
  cases nodes[i]? with
  | none => rfl
  | some l =>
    simp only [Option.map_some, hf]
    cases f l with
    | none => rfl
    | some j => exact nodeAt_noLast _ _

theorem siblings_noLast (nodes : Slice α) :
    Siblings.next (nodes.map Links.noLast) = Siblings.next nodes := by
  funext s
  cases s with
  | none => rfl
  | some n =>
    show (nodeNext _ n, _) = (nodeNext _ n, _)
    unfold nodeNext; rw [follow_noLast _ _ _ (fun _ => rfl)]

theorem ancestors_noLast (nodes : Slice α) :
    Ancestors.next (nodes.map Links.noLast) = Ancestors.next nodes := by
  funext s
  cases s with
  | none => rfl
  | some n =>
    show (nodeParent _ n, _) = (nodeParent _ n, _)
    unfold nodeParent; rw [follow_noLast _ _ _ (fun _ => rfl)]

theorem nodeValue_noLast (nodes : Slice α) (i : Nat) :
    nodeValue (nodes.map Links.noLast) i = nodeValue nodes i := by
  unfold nodeValue
  rw [List.getElem?_map]
  cases nodes[i]? <;> rfl

theorem nodeSpan_noLast (nodes : Slice α) (i : Nat) :
    nodeSpan (nodes.map Links.noLast) i = nodeSpan nodes i := by
  unfold nodeSpan
  rw [List.getElem?_map]
  cases nodes[i]? <;> rfl

theorem childrenNext_noLast (nodes : Slice α) :
    Children.next (nodes.map Links.noLast) = Children.next nodes := by
  funext c
  unfold Children.next
  cases c.first with
  | none => rfl
  | some f =>
    simp only [List.getElem?_map]
    cases nodes[f]? <;> rfl

/-! ## The tree with the last children that `Seg` asks for -/

theorem spine_of_last_cons {x y : Lab α} {k k' r : Forest (Lab α)} :
    (Forest.cons x k (Forest.cons y k' r)).spine = (Forest.cons y k' r).spine := by
  rw [spine]; simp

theorem spine_of_last {x : Lab α} {k : Forest (Lab α)} :
    (Forest.cons x k .nil).spine = x :: k.spine := by
  rw [spine]

theorem heldLast_spine (root : Bool) (F : Forest (Lab α)) (h : F ≠ nil) :
    ∃ i, F.heldLast root = some i ∧ i ∈ F.spine.map (·.id) := by
  induction F with
  | nil => exact absurd rfl h
  | cons x k r ihk ihr =>
    cases r with
    | nil =>
      have hx : ∃ i, some x.id = some i ∧ i ∈ (Forest.cons x k .nil).spine.map (·.id) :=
        ⟨x.id, rfl, by rw [spine_of_last]; simp⟩
      rw [heldLast]
      by_cases hw : k.wrappedBy x.id = true
      · have hk : k ≠ nil := by rintro rfl; simp [wrappedBy] at hw
        obtain ⟨i, h1, h2⟩ := ihk hk
        rw [if_pos hw]
        split
        · exact hx
        · refine ⟨i, h1, ?_⟩
          rw [spine_of_last, List.map_cons]; exact List.mem_cons_of_mem _ h2
      · rw [if_neg hw]; exact hx
    | cons y k' r' =>
      rw [heldLast, spine_of_last_cons]
      exact ihr (by simp)

theorem LastRel.choose (o : Option Nat) (k : Forest (Lab α)) :
    LastRel false o (k.lastLink o) k := by
  refine ⟨?_, ?_, by simp, rfl⟩
  · rintro rfl; cases o <;> rfl
  · intro h
    cases o with
    | none => exact heldLast_spine true k h
    | some i =>
      rw [lastLink]
      split
      · have := (LastOn.exact (k := k)).2 h; exact this
      · exact heldLast_spine false k h

theorem SegL.choose {nodes : List (Links α)} {F : Forest (Lab α)} {par prev nxt : Option Nat}
    (h : SegL nodes F par prev nxt) (nd : F.ids.Nodup) :
    ∃ nodes0 : List (Links α), nodes0.map Links.noLast = nodes.map Links.noLast ∧
      (∀ i, i ∉ F.ids → nodes0[i]? = nodes[i]?) ∧ Seg false nodes0 F par prev nxt := by
  induction F generalizing nodes par prev nxt with
  | nil => exact ⟨nodes, rfl, fun _ _ => rfl, trivial⟩
  | cons x k r ihk ihr =>
    obtain ⟨⟨l, _, hx⟩, hk, hr⟩ := h
    obtain ⟨n1, n2, n3⟩ : x.id ∉ k.ids ++ r.ids ∧ k.ids.Nodup ∧ r.ids.Nodup ∧ ∀ i ∈ k.ids, i ∉ r.ids := by
      rw [ids_cons, List.nodup_cons, List.nodup_append] at nd
      exact ⟨nd.1, nd.2.1, nd.2.2.1, fun i hi hi' => nd.2.2.2 i hi i hi' rfl⟩
    obtain ⟨n3, n4⟩ := n3
    have nxk : x.id ∉ k.ids := fun hm => n1 (List.mem_append_left _ hm)
    have nxr : x.id ∉ r.ids := fun hm => n1 (List.mem_append_right _ hm)
    obtain ⟨a, a1, a2, a3⟩ := ihk hk n2
    have hr' : SegL a r par (some x.id) nxt :=
      hr.congr (fun i hi => a2 i (fun hm => n4 i hm hi))
    obtain ⟨b, b1, b2, b3⟩ := ihr hr' n3
    have hb : b[x.id]? = some (mkLinks x par prev (r.headId.or nxt) k.headId l) := by
      rw [b2 _ nxr, a2 _ nxk, hx]
    have hlt : x.id < b.length := (List.getElem?_eq_some_iff.1 hb).1
    refine ⟨b.set x.id (mkLinks x par prev (r.headId.or nxt) k.headId (k.lastLink (some x.id))),
      ?_, ?_, ⟨_, LastRel.choose _ _, List.getElem?_set_self hlt⟩, ?_, ?_⟩
    · rw [← a1, ← b1]
      refine List.ext_getElem? fun i => ?_
      rw [List.getElem?_map, List.getElem?_map]
      by_cases hi : x.id = i
      · subst hi
        rw [List.getElem?_set_self hlt, hb]; rfl
      · rw [List.getElem?_set_ne hi]
    · intro i hi
      simp only [ids_cons, List.mem_cons, List.mem_append, not_or] at hi
      rw [List.getElem?_set_ne (fun he => hi.1 he.symm), b2 i hi.2.2, a2 i hi.2.1]
    · refine a3.congr (fun i hi => ?_)
      rw [List.getElem?_set_ne (fun he => nxk (by rw [he]; exact hi)), b2 i (n4 i hi)]
    · refine b3.congr (fun i hi => ?_)
      rw [List.getElem?_set_ne (fun he => nxr (by rw [he]; exact hi))]

/-- `t` stores `F`, the stored last children being on the right spines. -/
abbrev Stores (t : Tree α) (F : Forest (Lab α)) : Prop := TRepL t F [] t.nodes.length

theorem RelL.stores {s : Sys α} {n : Loose α} (h : RelL s n) (hs : n.base.stack = []) :
    Stores s.b.tree n.base.cur := by
  have := h.base.tree
  rw [hs] at this
  rw [Stores, this.len]; exact this

theorem Stores.nodup {t : Tree α} {F : Forest (Lab α)} (h : Stores t F) : F.ids.Nodup := by
  simpa [stackIds] using TRepL.nodup h

/-- The tree with other last children. -/
theorem Stores.choose {t : Tree α} {F : Forest (Lab α)} (h : Stores t F) :
    ∃ t0 : Tree α, Represents false t0 F ∧ t0.nodes.map Links.noLast = t.nodes.map Links.noLast ∧
      t0.first = t.first ∧ t0.nodes.length = t.nodes.length := by
  obtain ⟨ns, h1, h2, h3⟩ := h.seg.choose h.nodup
  have hlen : ns.length = t.nodes.length := by
    have := congrArg List.length h1
    simpa using this
  refine ⟨{ t with nodes := ns, last := F.lastLink none }, ⟨h3, ⟨h.ctx.1, LastRel.choose _ _⟩, ?_, rfl⟩,
    h1, rfl, hlen⟩
  show (F.ids ++ stackIds []).Perm (List.range ns.length)
  rw [hlen]; exact h.ids

theorem noLast_congr {β : Type} {f : Slice α → β} (hf : ∀ nodes, f (nodes.map Links.noLast) = f nodes)
    {a b : Slice α} (e : a.map Links.noLast = b.map Links.noLast) : f a = f b := by
  rw [← hf a, e, hf b]

/-- The walks of a tree. -/
theorem Stores.walks {t : Tree α} {F : Forest (Lab α)} (h : Stores t F) :
    Yields (WalkEvents.next t.nodes) t.walk ((F.events .next).map fun p => (p.1, p.2.id)) ∧
    Yields (Walk.next t.nodes) t.walk (F.preorder.map (·.id)) ∧ t.listing = some F.listing ∧
    t.firstNode = (F.tops.map (·.id)).head? := by
  obtain ⟨t0, h0, e, ef, el⟩ := h.choose
  have hw : t0.walk = t.walk := by unfold Tree.walk; rw [ef]
  refine ⟨?_, ?_, ?_, ?_⟩
  · rw [← noLast_congr walkEvents_noLast e, ← hw]; exact h0.walk_events
  · rw [← noLast_congr walk_noLast e, ← hw]; exact h0.walk
  · rw [← h0.listing]
    unfold Tree.listing
    simp only [Tree.len, el, hw, ← noLast_congr withDepths_noLast e,
      ← noLast_congr (fun n => funext (nodeValue_noLast n)) e,
      ← noLast_congr (fun n => funext (nodeSpan_noLast n)) e]
  · have := h0.tree_first
    unfold Tree.firstNode Tree.get at this ⊢
    rw [← ef, ← noLast_congr (fun n => funext (nodeAt_noLast n)) e]
    exact this

theorem Stores.loc_last {t : Tree α} {F : Forest (Lab α)} (h : Stores t F)
    {anc : List (Lab α)} {left kids right : Forest (Lab α)} {x : Lab α}
    (hl : Loc F anc left x kids right) :
    ∃ l, LastOn l kids ∧ t.nodes[x.id]? = some (mkLinks x (anc.head?.map (·.id)) left.lastId
      right.headId kids.headId l) := by
  have key : SegL t.nodes (left ++ .cons x kids right) (anc.head?.map (·.id)) none none := by
    induction hl with
    | root e => rw [← e]; exact h.seg
    | child hp e ih =>
      rw [SegL_append] at ih
      rw [← e]
      exact ih.2.2.1
  rw [SegL_append] at key
  obtain ⟨l, h1, h2⟩ := key.2.1
  refine ⟨l, h1, ?_⟩
  rw [h2]
  cases left.lastId <;> cases right.headId <;> rfl

/-- A node of a tree, and where one gets from it. -/
theorem Stores.node {t : Tree α} {F : Forest (Lab α)} (h : Stores t F)
    {anc : List (Lab α)} {left kids right : Forest (Lab α)} {x : Lab α}
    (hl : Loc F anc left x kids right) :
    (nodeValue t.nodes x.id = some x.data ∧ nodeSpan t.nodes x.id = some x.span) ∧
    (nodeParent t.nodes x.id = anc.head?.map (·.id) ∧
      nodePrev t.nodes x.id = (left.tops.map (·.id)).getLast? ∧
      nodeNext t.nodes x.id = (right.tops.map (·.id)).head? ∧
      nodeFirst t.nodes x.id = (kids.tops.map (·.id)).head?) ∧
    Yields (Siblings.next t.nodes) (nodeSiblings x.id) (x.id :: right.tops.map (·.id)) ∧
    Yields (Ancestors.next t.nodes) (nodeAncestors x.id) (x.id :: anc.map (·.id)) ∧
    Yields (Inside.next t.nodes) (nodeWalk x.id) (x.id :: kids.preorder.map (·.id)) ∧
    ∀ {pre post : List Nat}, F.preorder.map (·.id) = pre ++ (x.id :: kids.preorder.map (·.id)) ++ post →
      Yields (Walk.next t.nodes) (nodeWalk x.id) (x.id :: kids.preorder.map (·.id) ++ post) ∧
      Yields (Walk.next t.nodes) (nodeWalkFrom x.id) post := by
  obtain ⟨t0, h0, e, ef, el⟩ := h.choose
  have hg := h0.node_get hl
  have hf : ∀ (f : Links α → Option Nat), (∀ l, f (Links.noLast l) = f l) →
      follow t0.nodes x.id f = follow t.nodes x.id f :=
    fun f hf => noLast_congr (f := fun n => follow n x.id f) (fun n => follow_noLast n _ f hf) e
  refine ⟨⟨?_, ?_⟩, ⟨?_, ?_, ?_, ?_⟩, ?_, ?_, ?_, ?_⟩
  · rw [← hg.2.1]; exact (noLast_congr (f := fun n => nodeValue n x.id) (fun n => nodeValue_noLast n _) e).symm
  · rw [← hg.2.2.1]; exact (noLast_congr (f := fun n => nodeSpan n x.id) (fun n => nodeSpan_noLast n _) e).symm
  · rw [← h0.node_parent hl]; exact (hf _ fun _ => rfl).symm
  · exact (hf (·.prev) fun _ => rfl).symm.trans (h0.node_prev hl)
  · exact (hf (·.next) fun _ => rfl).symm.trans (h0.node_next hl)
  · exact (hf (·.first) fun _ => rfl).symm.trans (h0.node_first hl)
  · rw [← noLast_congr siblings_noLast e]; exact h0.siblings hl
  · rw [← noLast_congr ancestors_noLast e]; exact h0.ancestors hl
  · rw [← noLast_congr inside_noLast e]; exact (h0.inside hl).1
  · intro pre post hp
    obtain ⟨pre', post', e1, _, h2, _, h4⟩ := h0.node_walk hl
    have e2 := congrArg (List.map (·.2)) e1
    have e3 : ((F.depths 0).map (fun p => ((p.1 : Int) - anc.length, p.2.id))).map (·.2) = F.ids := by
      rw [List.map_map, ids, ← depths_snd 0 F, List.map_map]; rfl
    have hk : ((kids.depths 1).map fun p => ((p.1 : Int), p.2.id)).map (·.2) = kids.ids := by
      rw [List.map_map, ids, ← depths_snd 1 kids, List.map_map]; rfl
    rw [e3, ids, hp] at e2
    simp only [List.cons_eq_cons, List.map_append, List.map_cons, hk, List.cons_append,
      List.append_assoc] at e2
    have nd : (pre ++ x.id :: (kids.preorder.map (·.id) ++ post)).Nodup := by
      have := h.nodup
      rw [ids, hp] at this
      simpa using this
    have := (nodup_split nd e2).2
    have hpost : post = post'.map (·.2) := List.append_cancel_left (this.trans (by rw [ids]))
    rw [← noLast_congr walk_noLast e, hpost]
    exact ⟨h2, h4⟩

/-- `children()` and `last()`. -/
theorem Stores.children {t : Tree α} {F : Forest (Lab α)} (h : Stores t F) :
    (Yields (Children.next t.nodes) t.children (F.tops.map (·.id)) ∧
      (t.lastNode = none ↔ F = .nil) ∧ ∀ i, t.lastNode = some i → i ∈ F.spine.map (·.id)) ∧
    ∀ {anc : List (Lab α)} {left kids right : Forest (Lab α)} {x : Lab α},
      Loc F anc left x kids right →
      Yields (Children.next t.nodes) (nodeChildren t.nodes x.id) (kids.tops.map (·.id)) ∧
      (nodeLast t.nodes x.id = none ↔ kids = .nil) ∧
      ∀ i, nodeLast t.nodes x.id = some i → i ∈ kids.spine.map (·.id) := by
  obtain ⟨t0, h0, e, ef, el⟩ := h.choose
  have hat : ∀ i ∈ F.ids, nodeAt t.nodes i = some i := by
    intro i hi
    rw [← noLast_congr (f := fun n => nodeAt n i) (fun n => nodeAt_noLast n i) e]; exact h0.nodeAt_mem hi
  have key : ∀ {l : Option Nat} {k : Forest (Lab α)}, LastOn l k → (∀ i ∈ k.ids, i ∈ F.ids) →
      (l.bind (nodeAt t.nodes) = none ↔ k = .nil) ∧
      ∀ i, l.bind (nodeAt t.nodes) = some i → i ∈ k.spine.map (·.id) := by
    intro l k hl hk
    by_cases hn : k = .nil
    · rw [hl.1 hn]; simp [hn]
    · obtain ⟨i, h1, h2⟩ := hl.2 hn
      obtain ⟨y, hy, rfl⟩ := List.mem_map.1 h2
      have := hat y.id (hk _ (List.mem_map_of_mem (mem_preorder_of_spine hy)))
      rw [h1]
      simp only [Option.bind_some, this]
      refine ⟨by simp [hn], ?_⟩
      intro i hi
      simp only [Option.some.injEq] at hi
      exact hi ▸ h2
  refine ⟨⟨?_, ?_⟩, ?_⟩
  · rw [← noLast_congr childrenNext_noLast e]
    unfold Tree.children
    rw [h.ctx.1]
    exact children_forward F h0.root h.nodup h.ctx.2.2
  · exact key h.ctx.2 (fun _ h => h)
  · intro anc left kids right x hl
    obtain ⟨l, h1, h2⟩ := h.loc_last hl
    refine ⟨?_, ?_⟩
    · rw [← noLast_congr childrenNext_noLast e]
      simp only [nodeChildren, h2, mkLinks]
      exact children_forward kids (hl.kids h0.root) (hl.nodup_kids h.nodup).2 h1.2
    · have hk : ∀ i ∈ kids.ids, i ∈ F.ids := by
        intro i hi
        obtain ⟨y, hy, rfl⟩ := List.mem_map.1 hi
        exact List.mem_map_of_mem (hl.sibs_sub (by simp [hy]))
      have := key h1 hk
      unfold nodeLast follow
      rw [h2]
      simp only [mkLinks]
      cases l with
      | none => simpa using this
      | some i => simpa using this

end Syntree
