import Verif.Proof.Obtained
import Verif.Proof.Final

/-! Every node and every tree has a first child if and only if it has a last one. -/

namespace Syntree

variable {α : Type} {fl : Flavor}

/-- No node has a first child only, or a last child only. -/
def BothEnds (nodes : List (Links α)) : Prop :=
  ∀ (i : Nat) (l : Links α), nodes[i]? = some l → l.first.isSome = l.last.isSome

theorem BothEnds.modify {nodes : List (Links α)} (h : BothEnds nodes) (i : Nat)
    {f : Links α → Links α}
    (hf : ∀ l : Links α, l.first.isSome = l.last.isSome → (f l).first.isSome = (f l).last.isSome) :
    BothEnds (nodes.modify i f) := by
  intro j l hj
  rw [List.getElem?_modify] at hj
  cases hx : nodes[j]? with
  | none => rw [hx] at hj; simp at hj
  | some x =>
    rw [hx] at hj
    simp only [Option.map_eq_map, Option.map_some, Option.some.injEq] at hj
    subst hj
    split
    · exact hf x (h j x hx)
    · exact h j x hx

theorem BothEnds.push {nodes : List (Links α)} (h : BothEnds nodes) {l : Links α}
    (hl : l.first.isSome = l.last.isSome) : BothEnds (nodes ++ [l]) := by
  intro j x hj
  rw [List.getElem?_append] at hj
  split at hj
  · exact h j x hj
  · cases hk : j - nodes.length with
    | zero => rw [hk] at hj; simp at hj; subst hj; exact hl
    | succ k => rw [hk] at hj; simp at hj

theorem BothEnds.set {nodes : List (Links α)} (h : BothEnds nodes) (i : Nat) {l : Links α}
    (hl : l.first.isSome = l.last.isSome) : BothEnds (nodes.set i l) := by
  intro j x hj
  rw [List.getElem?_set] at hj
  split at hj
  · split at hj
    · simp at hj; subst hj; exact hl
    · simp at hj
  · exact h j x hj

/-- The invariant of a tree. -/
structure BothT (t : Tree α) : Prop where
  nodes : BothEnds t.nodes
  root : t.first.isSome = t.last.isSome
  full : 0 < t.nodes.length → t.first.isSome = true
  last : ∀ e, t.last = some e → e < t.nodes.length

theorem BothT.empty : BothT (Tree.empty : Tree α) :=
  ⟨fun i l h => by simp [Tree.empty] at h, rfl, fun h => by simp [Tree.empty] at h,
    fun e h => by simp [Tree.empty] at h⟩

theorem BothT.modifyNode {t : Tree α} (h : BothT t) (i : Nat) {f : Links α → Links α}
    (hf : ∀ l : Links α, l.first.isSome = l.last.isSome → (f l).first.isSome = (f l).last.isSome) :
    BothT (t.modifyNode i f) :=
  ⟨h.nodes.modify i hf, h.root, fun hp => h.full (by simpa [Tree.modifyNode] using hp),
    fun e he => by simpa [Tree.modifyNode] using h.last e he⟩

theorem BothT.modifyOpt {t : Tree α} (h : BothT t) (o : Option Nat) {f : Links α → Links α}
    (hf : ∀ l : Links α, l.first.isSome = l.last.isSome → (f l).first.isSome = (f l).last.isSome) :
    BothT (t.modifyOpt o f) := by
  cases o with
  | none => exact h
  | some i => exact h.modifyNode i hf

theorem modifyNode_count (t : Tree α) (i : Nat) (f : Links α → Links α) :
    (t.modifyNode i f).nodes.length = t.nodes.length := by simp [Tree.modifyNode]

theorem modifyOpt_count (t : Tree α) (o : Option Nat) (f : Links α → Links α) :
    (t.modifyOpt o f).nodes.length = t.nodes.length := by
  cases o with
  | none => rfl
  | some i => exact modifyNode_count t i f

theorem BothT.pushIndex {t : Tree α} (h : BothT t) (i : TreeIndex) : BothT (t.pushIndex fl i) := by
  unfold Tree.pushIndex; split
  · exact ⟨h.nodes, h.root, h.full, h.last⟩
  · exact h

theorem pushIndex_count (t : Tree α) (i : TreeIndex) :
    (t.pushIndex fl i).nodes.length = t.nodes.length := by
  unfold Tree.pushIndex; split <;> rfl

/-- The invariant of a builder. -/
structure BothB (b : Builder α) : Prop where
  tree : BothT b.tree
  parent : ∀ p, b.parent = some p → p < b.tree.nodes.length

theorem orElse_isSome (o : Option Nat) (n : Nat) :
    (if o.isNone then some n else o).isSome = true := by cases o <;> rfl

theorem ends_addChild (new : Nat) (sp : Span) (l : Links α) :
    (l.addChild new sp).first.isSome = (l.addChild new sp).last.isSome := by
  simp only [Links.addChild]
  cases l.first <;> rfl

theorem BothB.insert {b b' : Builder α} (h : BothB b) {d : α} {sp : Span} {r : Except Err Nat}
    (e : b.insert fl d sp = (b', r)) : BothB b' ∧ b'.parent = b.parent ∧
      ∀ id, r = .ok id → id < b'.tree.nodes.length := by
  unfold Builder.insert at e
  split at e
  · cases e; exact ⟨h, rfl, fun id hid => by cases hid⟩
  · rename_i new hnew
    have hn : new = b.tree.nodes.length := ptrNew_len hnew
    have hp : BothEnds (b.tree.nodes ++ [(⟨d, sp, b.parent, b.sibling, none, none, none⟩ : Links α)]) :=
      h.tree.nodes.push rfl
    have fin : ∀ t : Tree α, BothT t → t.nodes.length = b.tree.nodes.length + 1 →
        ∀ f : Links α → Links α, (∀ l : Links α, l.first.isSome = l.last.isSome →
          (f l).first.isSome = (f l).last.isSome) →
        BothB { b with tree := t.modifyOpt b.sibling f, sibling := none } ∧
          new < (t.modifyOpt b.sibling f).nodes.length := by
      intro t ht hlen f hf
      refine ⟨⟨ht.modifyOpt _ hf, ?_⟩, ?_⟩
      · intro p hp
        have := h.parent p hp
        show p < (Tree.modifyOpt _ _ _).nodes.length
        rw [modifyOpt_count, hlen]; omega
      · rw [modifyOpt_count, hlen]; omega
    dsimp only at e
    cases hpar : b.parent with
    | none =>
      rw [hpar] at e hp
      obtain ⟨g1, g2⟩ := fin ((b.tree.push ⟨d, sp, none, b.sibling, none, none, none⟩).addRoot new)
        ⟨hp, orElse_isSome _ _, fun _ => orElse_isSome _ _,
          fun x hx => by
            simp only [Tree.addRoot, Option.some.injEq] at hx
            subst hx
            simp [Tree.addRoot, Tree.push, hn]⟩
        (by simp [Tree.addRoot, Tree.push]) (fun l => { l with next := some new }) (fun l hl => hl)
      rw [hpar] at g1
      cases e
      exact ⟨g1, rfl, fun id hid => by cases hid; exact g2⟩
    | some p =>
      rw [hpar] at e hp
      have hlt := h.parent p hpar
      obtain ⟨g1, g2⟩ := fin
        ((b.tree.push ⟨d, sp, some p, b.sibling, none, none, none⟩).modifyNode p
          (Links.addChild new sp))
        (BothT.modifyNode (t := b.tree.push ⟨d, sp, some p, b.sibling, none, none, none⟩)
          ⟨hp, h.tree.root, fun _ => h.tree.full (by omega), fun x hx => by
            have := h.tree.last x hx
            simp [Tree.push]; omega⟩ p (fun l _ => ends_addChild _ _ l))
        (by simp [Tree.modifyNode, Tree.push]) (fun l => { l with next := some new }) (fun l hl => hl)
      rw [hpar] at g1
      cases e
      exact ⟨g1, rfl, fun id hid => by cases hid; exact g2⟩

theorem BothB.openWith {b : Builder α} (h : BothB b) (d : α) (sp : Span) :
    BothB (b.openWith fl d sp).1 := by
  unfold Builder.openWith
  rcases e : b.insert fl d sp with ⟨b', r⟩
  obtain ⟨h1, h2, h3⟩ := h.insert e
  cases r with
  | error e => exact h1
  | ok id => exact ⟨h1.tree, fun p hp => by cases hp; exact h3 _ rfl⟩

theorem BothB.close {b : Builder α} (h : BothB b) : BothB b.close.1 := by
  unfold Builder.close
  split
  · exact h
  · rename_i head _
    dsimp only
    split
    · exact ⟨h.tree, fun p hp => by cases hp⟩
    · split
      · split
        · rename_i id _ hlt
          refine ⟨h.tree.modifyNode id (fun l hl => hl), ?_⟩
          intro p hp
          cases hp
          rw [modifyNode_count]; exact hlt
        · exact ⟨h.tree, fun p hp => by cases hp⟩
      · exact ⟨h.tree, fun p hp => by cases hp⟩

theorem BothB.token {b : Builder α} (h : BothB b) (d : α) (len : Nat) :
    BothB (b.token fl d len).1 := by
  unfold Builder.token
  dsimp only
  split
  · exact h
  · rename_i b0 hb0
    have h0 : BothB b0 := by
      split at hb0
      · cases hb0; exact h
      · split at hb0
        · cases hb0
        · cases hb0
          exact ⟨⟨h.tree.nodes, h.tree.root, h.tree.full, h.tree.last⟩, h.parent⟩
    split
    · rename_i e
      exact (h0.insert e).1
    · rename_i b' id e
      have h1 := (h0.insert e).1
      split
      · exact ⟨h1.tree, h1.parent⟩
      · exact ⟨h1.tree.pushIndex _, fun p hp => by rw [pushIndex_count]; exact h1.parent p hp⟩

theorem BothB.tokenWith {b : Builder α} (h : BothB b) (d : α) (sp : Span) :
    BothB (b.tokenWith fl d sp).1 := by
  unfold Builder.tokenWith
  rcases e : b.insert fl d sp with ⟨b', r⟩
  obtain ⟨h1, _, _⟩ := h.insert e
  cases r with
  | error e => exact h1
  | ok id =>
    refine ⟨(h1.tree.pushIndex _).modifyOpt _ (fun l hl => hl), ?_⟩
    intro p hp
    show p < (Tree.modifyOpt _ _ _).nodes.length
    rw [modifyOpt_count, pushIndex_count]
    exact h1.parent p hp

theorem restructure_ends (new : Nat) : ∀ (fuel : Nat) {nodes nodes' : List (Links α)} {cur : Nat}
    {r : Except Err (Nat × Nat)}, BothEnds nodes → restructure new fuel nodes cur = (nodes', r) →
    BothEnds nodes' ∧ nodes'.length = nodes.length
  | 0, _, _, _, _, h, e => by cases e; exact ⟨h, rfl⟩
  | fuel + 1, nodes, nodes', cur, r, h, e => by
    rw [restructure.eq_2] at e
    split at e
    · cases e; exact ⟨h, rfl⟩
    · rename_i links hl
      have h' := h.set cur (l := { links with parent := some new }) (h cur links hl)
      dsimp only at e
      split at e
      · obtain ⟨g1, g2⟩ := restructure_ends new fuel h' e
        exact ⟨g1, by simpa using g2⟩
      · cases e; exact ⟨h', by simp⟩

theorem reparent_ends {new id : Nat} {links : Links α} {nodes nodes' : List (Links α)}
    {r : Except Err (Nat × Span)} (h : BothEnds nodes) (hl : nodes[id]? = some links)
    (e : reparent new id links nodes = (nodes', r)) :
    BothEnds nodes' ∧ nodes'.length = nodes.length := by
  unfold reparent at e
  have h' := h.set id (l := { links with parent := some new, prev := none }) (h id links hl)
  dsimp only at e
  split at e
  · split at e
    · rename_i hr
      cases e
      obtain ⟨g1, g2⟩ := restructure_ends new _ h' hr
      exact ⟨g1, by simpa using g2⟩
    · rename_i hr
      cases e
      obtain ⟨g1, g2⟩ := restructure_ends new _ h' hr
      exact ⟨g1, by simpa using g2⟩
  · cases e; exact ⟨h', by simp⟩

theorem BothB.closeAtCore {b : Builder α} (h : BothB b) (cells : Cells) (c : Nat) (d : α)
    (ex : Option Span) : BothB (b.closeAtCore fl cells c d ex).2.1 := by
  unfold Builder.closeAtCore
  split
  · exact h
  · rename_i cell _
    dsimp only
    split
    · exact h
    · split
      · exact h
      · rename_i newId _
        split
        · rcases e : b.insert fl d (ex.getD (Span.point b.cursor)) with ⟨b', r⟩
          obtain ⟨h1, _, _⟩ := h.insert e
          cases r with
          | error e => exact h1
          | ok id =>
            dsimp only
            split
            · exact h1
            · exact ⟨h1.tree, h1.parent⟩
        · rename_i links hl
          rcases e : reparent newId cell.node links b.tree.nodes with ⟨nodes, r⟩
          obtain ⟨g1, g2⟩ := reparent_ends h.tree.nodes hl e
          have ht : BothT { b.tree with nodes := nodes } :=
            ⟨g1, h.tree.root, fun hp => h.tree.full (by rw [← g2]; exact hp),
              fun x hx => by rw [g2]; exact h.tree.last x hx⟩
          cases r with
          | error e => exact ⟨ht, fun p hp => by rw [g2]; exact h.parent p hp⟩
          | ok q =>
            obtain ⟨last, span⟩ := q
            dsimp only
            unfold Tree.relink
            dsimp only
            have k1 := (ht.modifyOpt links.parent (f := fun p : Links α =>
              { p with
                first := if p.first = some cell.node then some newId else p.first
                last := if p.last = some cell.node then some newId else p.last }) (by
                intro l hl
                dsimp only
                cases hf : l.first <;> cases hla : l.last <;> rw [hf, hla] at hl <;>
                  simp at hl ⊢
                repeat' split
                all_goals rfl)).modifyOpt links.prev
                (f := fun p => { p with next := some newId }) (fun l hl => hl)
            refine ⟨⟨k1.nodes.push rfl, ?_, ?_, ?_⟩, ?_⟩
            · have := k1.root
              simp only [Tree.push]
              rw [← this]
              generalize (Tree.modifyOpt _ links.prev _).first = o
              cases o with
              | none => rfl
              | some x => split <;> rfl
            · intro _
              have := k1.full (by
                simp only [modifyOpt_count]
                rw [g2]
                have := get_lt hl
                omega)
              simp only [Tree.push]
              revert this
              generalize (Tree.modifyOpt _ links.prev _).first = o
              cases o with
              | none => exact id
              | some x => intro _; split <;> rfl
            · intro x hx
              have := k1.last x hx
              simp only [modifyOpt_count] at this
              simp only [Tree.push, List.length_append, List.length_singleton, modifyOpt_count]
              omega
            · intro p hp
              have := h.parent p hp
              simp only [Tree.push, List.length_append, List.length_singleton, modifyOpt_count]
              omega

theorem BothB.step {s : Sys α} (h : BothB s.b) (op : Op α) : BothB (s.step fl op).1.b := by
  cases op with
  | «open» d => exact h.openWith d _
  | openWith d sp => exact h.openWith d sp
  | close => exact h.close
  | token d n => exact h.token d n
  | tokenEmpty d => exact h.token d 0
  | tokenWith d sp => exact h.tokenWith d sp
  | checkpoint =>
    have key : (s.b.mkCheckpoint fl s.cells).2.1.tree = s.b.tree ∧
        (s.b.mkCheckpoint fl s.cells).2.1.parent = s.b.parent := by
      unfold Builder.mkCheckpoint
      repeat' split
      all_goals exact ⟨rfl, rfl⟩
    have h' : BothB (s.b.mkCheckpoint fl s.cells).2.1 :=
      ⟨by rw [key.1]; exact h.tree, by rw [key.1, key.2]; exact h.parent⟩
    clear key
    simp only [Sys.step]
    revert h'
    generalize s.b.mkCheckpoint fl s.cells = q
    intro h'
    obtain ⟨c, b, r⟩ := q
    cases r with
    | error e => exact h'
    | ok x => exact h'
  | closeAt k d =>
    simp only [Sys.step]
    split
    · exact h
    · exact h.closeAtCore s.cells _ d none
  | closeAtWith k d sp =>
    simp only [Sys.step]
    split
    · exact h
    · exact h.closeAtCore s.cells _ d (some sp)
  | setCursor i => exact ⟨h.tree, h.parent⟩

theorem both_run (ops : List (WOp α)) : ∀ {w : World α},
    (∀ (i : Nat) (fl : Flavor) (b : Builder α), w.builders[i]? = some (fl, b) → BothB b) →
    ∀ (i : Nat) (fl : Flavor) (b : Builder α), (w.run ops).1.builders[i]? = some (fl, b) →
      BothB b := by
  induction ops with
  | nil => exact fun h => h
  | cons op ops ih =>
    intro w h
    refine ih (w := (w.step op).1) ?_
    have push : ∀ (x : Flavor × Builder α), BothB x.2 → ∀ (i : Nat) (fl : Flavor) (b : Builder α),
        (w.builders ++ [x])[i]? = some (fl, b) → BothB b := by
      intro x hx i fl b hi
      rw [List.getElem?_append] at hi
      split at hi
      · exact h i fl b hi
      · cases hk : i - w.builders.length with
        | zero => rw [hk] at hi; simp at hi; subst hi; exact hx
        | succ k => rw [hk] at hi; simp at hi
    cases op with
    | new fl => exact push (fl, Builder.new) ⟨BothT.empty, fun p hp => by cases hp⟩
    | clone j =>
      simp only [World.step]
      split
      · exact h
      · rename_i fl b hb
        exact push (fl, b.clone) (h j fl b hb)
    | call j op =>
      simp only [World.step]
      split
      · exact h
      · rename_i fl b hb
        intro i fl' b' hi
        dsimp only at hi
        rw [List.getElem?_set] at hi
        split at hi
        · split at hi
          · simp only [Option.some.injEq, Prod.mk.injEq] at hi
            rw [← hi.2]
            exact BothB.step (s := ⟨b, w.cells, w.handles⟩) (h j fl b hb) op
          · simp at hi
        · exact h i fl' b' hi

/-! ## `modify` -/

structure BothM (st : ModState α) : Prop where
  tree : BothT st.output
  start : st.output.nodes = [] → st.refactor.parents = []

theorem BothM.emit {nodes : Slice α} {st st' : ModState α} (h : BothM st) {i n : Nat}
    {first : Bool} (hi : i = st.output.nodes.length)
    (e : st.emit fl nodes i n first = .ok st') : BothM st' := by
  unfold ModState.emit at e
  cases hl : nodes[n]? with
  | none => rw [hl] at e; simp at e
  | some links =>
    rw [hl] at e
    dsimp only at e
    -- the tree after the root links have been set, allowing for the node that comes
    let o1 : Tree α := if st.refactor.parents.isEmpty then
        { st.output with
          first := if st.output.first.isNone then some i else st.output.first
          last := some i }
      else st.output
    have ho1 : BothEnds o1.nodes ∧ o1.first.isSome = true ∧ o1.last.isSome = true ∧
        (∀ x, o1.last = some x → x < o1.nodes.length + 1) ∧
        o1.nodes.length = st.output.nodes.length := by
      by_cases hp : st.refactor.parents.isEmpty
      · simp only [o1, hp, if_true]
        refine ⟨h.tree.nodes, orElse_isSome _ _, rfl, ?_, trivial⟩
        intro x hx; cases hx; omega
      · simp only [o1, hp]
        have hne : 0 < st.output.nodes.length := by
          cases hn : st.output.nodes with
          | nil => rw [h.start hn] at hp; simp at hp
          | cons a l => simp
        refine ⟨h.tree.nodes, h.tree.full hne, h.tree.root ▸ h.tree.full hne, ?_, rfl⟩
        intro x hx
        have := h.tree.last x hx
        show x < st.output.nodes.length + 1
        omega
    -- everything else keeps this
    let Keep : Tree α → Prop := fun o => BothEnds o.nodes ∧ o.first.isSome = true ∧
      o.last.isSome = true ∧ (∀ x, o.last = some x → x < o.nodes.length + 1)
    have kmod : ∀ (o : Tree α) (p : Option Nat) (f : Links α → Links α),
        (∀ l : Links α, l.first.isSome = l.last.isSome → (f l).first.isSome = (f l).last.isSome) →
        Keep o → Keep (o.modifyOpt p f) := by
      intro o p f hf hk
      cases p with
      | none => exact hk
      | some p =>
        refine ⟨hk.1.modify p hf, hk.2.1, hk.2.2.1, ?_⟩
        intro x hx
        rw [show (o.modifyOpt (some p) f).nodes.length = o.nodes.length from modifyNode_count o p f]
        exact hk.2.2.2 x hx
    have kidx : ∀ (o : Tree α) (x : TreeIndex), Keep o → Keep (o.pushIndex fl x) := by
      intro o x hk
      unfold Tree.pushIndex; split
      · exact hk
      · exact hk
    have kpush : ∀ (o : Tree α) (l : Links α), l.first.isSome = l.last.isSome → Keep o →
        BothT (o.push l) := by
      intro o l hl hk
      refine ⟨hk.1.push hl, ?_, fun _ => hk.2.1, ?_⟩
      · show o.first.isSome = o.last.isSome
        rw [hk.2.1, hk.2.2.1]
      · intro x hx
        have := hk.2.2.2 x hx
        simpa [Tree.push] using this
    have hk1 : Keep o1 := ⟨ho1.1, ho1.2.1, ho1.2.2.1, ho1.2.2.2.1⟩
    have fin : ∀ (o : Tree α) (rw' : RefactorWalk) (spanR : Except Err (Tree α × Nat × Span))
        (prev : Option Nat), (∀ o' c sp, spanR = .ok (o', c, sp) → Keep o') →
        (match spanR with
          | .error e => (.error e : Except Err (ModState α))
          | .ok (out, cursor, span) =>
            let parent := rw'.parents.head?.map (fun q : Nat × Nat => q.2)
            let out := out.modifyOpt parent (fun p =>
              { p with
                first := if p.first.isNone then some i else p.first
                last := some i
                span := { p.span with stop := span.stop } })
            let out := out.push
              { data := links.data, span := span, parent := parent, prev := prev, next := none,
                first := none, last := none }
            let (refactor, current) := rw'.step nodes n i
            .ok ⟨out, refactor, cursor, current⟩) = .ok st' → BothM st' := by
      intro o rw' spanR prev hs he
      cases spanR with
      | error x => cases he
      | ok q =>
        obtain ⟨o', c, sp⟩ := q
        dsimp only at he
        cases he
        refine ⟨kpush _ _ rfl (kmod _ _ _ ?_ (hs _ _ _ rfl)), fun hn => ?_⟩
        · intro l _
          dsimp only
          cases l.first <;> rfl
        · simp [Tree.push] at hn
    revert e
    cases first with
    | true =>
      refine fin o1 st.refactor _ none ?_
      intro o' c sp hs
      split at hs
      · split at hs
        · cases hs
        · cases hs; exact kidx _ _ hk1
      · cases hs; exact hk1
    | false =>
      refine fin (o1.modifyOpt st.refactor.prev (fun l => { l with next := some i }))
        { st.refactor with prev := none } _ st.refactor.prev ?_
      intro o' c sp hs
      have hk2 := kmod o1 st.refactor.prev (fun l => { l with next := some i }) (fun l hl => hl) hk1
      split at hs
      · split at hs
        · cases hs
        · cases hs; exact kidx _ _ hk2
      · cases hs; exact hk2

theorem BothM.skip {nodes : Slice α} {st : ModState α} (h : BothM st) {n : Nat} {first : Bool}
    {r : RefactorWalk} {o : Option (Nat × Bool)}
    (e : st.refactor.skipSubtree nodes n first = (r, o)) (cur : Option (Nat × Bool)) :
    BothM { st with refactor := r, current := cur } := by
  refine ⟨h.tree, fun hn => ?_⟩
  have hp := h.start hn
  unfold RefactorWalk.skipSubtree at e
  split at e
  · cases e; exact hp
  · split at e
    · cases e; exact hp
    · rename_i h2
      rw [hp] at h2; cases h2

theorem BothM.loop {changes : List Nat} {nodes : Slice α} : ∀ (fuel : Nat) {st st' : ModState α},
    BothM st → ModState.loop fl changes nodes fuel st = .ok st' → BothM st'
  | 0, st, st', _, e => by cases e
  | fuel + 1, st, st', h, e => by
    rw [ModState.loop.eq_2] at e
    split at e
    · cases e; exact h
    · split at e
      · cases e
      · rename_i node first _ _ nodeId hid
        have hn : nodeId = st.output.nodes.length := ptrNew_len hid
        split at e
        · split at e
          · rename_i r hs
            exact BothM.loop fuel (h.skip hs none) e
          · rename_i r node' first' hs
            split at e
            · cases e
            · rename_i st2 he
              exact BothM.loop fuel (BothM.emit (st := { st with refactor := r })
                (h.skip hs st.current) hn he) e
        · split at e
          · cases e
          · rename_i st2 he
            exact BothM.loop fuel (h.emit hn he) e

theorem Obtained.both {t : Tree α} (h : Obtained t) : BothT t := by
  induction h with
  | @built ops w os i fl b t hw hb hbuild =>
    have hb' : ((World.init : World α).run ops).1.builders[i]? = some (fl, b) := by rw [hw]; exact hb
    have := both_run ops (w := World.init) (fun i fl b hi => by simp [World.init] at hi) i fl b hb'
    unfold Builder.build at hbuild
    split at hbuild
    · simp at hbuild
    · simp only [Except.ok.injEq] at hbuild
      subst hbuild; exact this.tree
  | @edited t t' fl c _ hm ih =>
    unfold ChangeSet.modify at hm
    dsimp only at hm
    split at hm
    · cases hm
    · rename_i st hst
      cases hm
      have := BothM.loop _ (st := ⟨Tree.empty, ⟨[], none⟩, 0, t.firstNode.map (·, false)⟩)
        ⟨BothT.empty, fun _ => rfl⟩ hst
      exact ⟨this.tree.nodes, this.tree.root, this.tree.full, this.tree.last⟩
  | @replaced t i v _ ih =>
    simp only [Tree.replace, nodeReplace]
    split
    · exact ih
    · rename_i l hl
      exact ⟨ih.nodes.set i (ih.nodes i l hl), ih.root,
        fun hp => ih.full (by simpa using hp), fun e he => by simpa using ih.last e he⟩

end Syntree
