import Verif.Model.World
import Verif.Proof.Pointer

/-! What stays true of a builder whatever checkpoints it is used with. -/

namespace Syntree

variable {α : Type}

/-- Links point inside of the table; `next` points forward. -/
structure NOk (nodes : List (Links α)) : Prop where
  next : ∀ (i : Nat) (l : Links α) (j : Nat), nodes[i]? = some l → l.next = some j →
    i < j ∧ j < nodes.length
  par : ∀ (i : Nat) (l : Links α) (j : Nat), nodes[i]? = some l → l.parent = some j →
    j < nodes.length

theorem NOk.nil : NOk ([] : List (Links α)) := ⟨by simp, by simp⟩

theorem NOk.push {nodes : List (Links α)} (h : NOk nodes) {l : Links α} (hn : l.next = none)
    (hp : ∀ j, l.parent = some j → j < nodes.length) : NOk (nodes ++ [l]) := by
  constructor
  · intro i l' j hi hj
    rw [List.length_append, List.length_singleton]
    rcases Nat.lt_or_ge i nodes.length with hlt | hge
    · rw [List.getElem?_append_left hlt] at hi
      have := h.next i l' j hi hj; omega
    · rw [List.getElem?_append_right hge] at hi
      have hi0 : i - nodes.length = 0 := by
        rcases Nat.eq_zero_or_pos (i - nodes.length) with h | h
        · exact h
        · rw [List.getElem?_eq_none (by simp; omega)] at hi; simp at hi
      rw [hi0] at hi; simp at hi; subst hi; rw [hn] at hj; simp at hj
  · intro i l' j hi hj
    rw [List.length_append, List.length_singleton]
    rcases Nat.lt_or_ge i nodes.length with hlt | hge
    · rw [List.getElem?_append_left hlt] at hi
      have := h.par i l' j hi hj; omega
    · rw [List.getElem?_append_right hge] at hi
      have hi0 : i - nodes.length = 0 := by
        rcases Nat.eq_zero_or_pos (i - nodes.length) with h | h
        · exact h
        · rw [List.getElem?_eq_none (by simp; omega)] at hi; simp at hi
      rw [hi0] at hi; simp at hi; subst hi; have := hp j hj; omega

/-- Change single entries. -/
theorem NOk.change {nodes nodes' : List (Links α)} (h : NOk nodes)
    (hlen : nodes'.length = nodes.length)
    (hc : ∀ (i : Nat) (l' : Links α), nodes'[i]? = some l' → ∃ l, nodes[i]? = some l ∧
      (l'.next = l.next ∨ ∀ j, l'.next = some j → i < j ∧ j < nodes.length) ∧
      (l'.parent = l.parent ∨ ∀ j, l'.parent = some j → j < nodes.length)) : NOk nodes' := by
  constructor
  · intro i l' j hi hj
    obtain ⟨l, hl, h1, _⟩ := hc i l' hi
    rw [hlen]
    rcases h1 with h1 | h1
    · exact h.next i l j hl (h1 ▸ hj)
    · exact h1 j hj
  · intro i l' j hi hj
    obtain ⟨l, hl, _, h1⟩ := hc i l' hi
    rw [hlen]
    rcases h1 with h1 | h1
    · exact h.par i l j hl (h1 ▸ hj)
    · exact h1 j hj

theorem modify_get {nodes : List (Links α)} {i k : Nat} {f : Links α → Links α} {l' : Links α}
    (h : (nodes.modify i f)[k]? = some l') :
    ∃ l, nodes[k]? = some l ∧ ((k = i ∧ l' = f l) ∨ (k ≠ i ∧ l' = l)) := by
  rw [List.getElem?_modify] at h
  cases hk : nodes[k]? with
  | none => rw [hk] at h; simp at h
  | some l =>
    rw [hk] at h
    by_cases hi : i = k
    · subst hi; simp at h; exact ⟨l, rfl, .inl ⟨rfl, h.symm⟩⟩
    · simp [hi] at h; exact ⟨l, rfl, .inr ⟨fun e => hi e.symm, h.symm⟩⟩

theorem NOk.modify {nodes : List (Links α)} (h : NOk nodes) (i : Nat) (f : Links α → Links α)
    (hf : ∀ l, ((f l).next = l.next ∨ ∀ j, (f l).next = some j → i < j ∧ j < nodes.length) ∧
      ((f l).parent = l.parent ∨ ∀ j, (f l).parent = some j → j < nodes.length)) :
    NOk (nodes.modify i f) := by
  refine h.change (by simp) ?_
  intro k l' hk
  obtain ⟨l, hl, ⟨rfl, rfl⟩ | ⟨_, rfl⟩⟩ := modify_get hk
  · exact ⟨l, hl, hf l⟩
  · exact ⟨l', hl, .inl rfl, .inl rfl⟩

/-- The open nodes: each is stored, and its parent is the next one, with a smaller id. -/
def OpenChain (nodes : List (Links α)) : List Nat → Prop
  | [] => True
  | p :: st => (∃ l, nodes[p]? = some l ∧ l.parent = st.head?) ∧ (∀ q ∈ st, q < p) ∧
      OpenChain nodes st

theorem OpenChain.mono {nodes nodes' : List (Links α)} {st : List Nat}
    (h : OpenChain nodes st)
    (hc : ∀ p ∈ st, ∀ l, nodes[p]? = some l → ∃ l', nodes'[p]? = some l' ∧ l'.parent = l.parent) :
    OpenChain nodes' st := by
  induction st with
  | nil => trivial
  | cons p st ih =>
    obtain ⟨⟨l, hl, hp⟩, h2, h3⟩ := h
    obtain ⟨l', hl', e⟩ := hc p (by simp) l hl
    exact ⟨⟨l', hl', e.trans hp⟩, h2, ih h3 (fun q hq => hc q (by simp [hq]))⟩

theorem OpenChain.lt {nodes : List (Links α)} {st : List Nat} (h : OpenChain nodes st) {p : Nat}
    (hp : p ∈ st) : p < nodes.length := by
  induction st with
  | nil => simp at hp
  | cons q st ih =>
    rcases List.mem_cons.1 hp with rfl | hp
    · obtain ⟨⟨l, hl, _⟩, _⟩ := h
      exact (List.getElem?_eq_some_iff.1 hl).1
    · exact ih h.2.2 hp

theorem OpenChain.le_head {nodes : List (Links α)} {st : List Nat} (h : OpenChain nodes st)
    {p q : Nat} (hp : st.head? = some p) (hq : q ∈ st) : q ≤ p := by
  cases st with
  | nil => simp at hq
  | cons r st =>
    simp at hp; subst hp
    rcases List.mem_cons.1 hq with rfl | hq
    · exact Nat.le_refl _
    · exact Nat.le_of_lt (h.2.1 q hq)

/-- The invariant of one builder; `st` are its open nodes. -/
structure WFB (fl : Flavor) (b : Builder α) (st : List Nat) : Prop where
  cap : b.tree.nodes.length ≤ 2 ^ fl.width - 1
  nok : NOk b.tree.nodes
  sib : ∀ j, b.sibling = some j → j < b.tree.nodes.length
  top : b.parent = st.head?
  chain : OpenChain b.tree.nodes st

/-- The invariant of the heap of checkpoint cells. -/
def CellsOk (cells : Cells) : Prop :=
  ∀ (c : Nat) (cell : Cell) (p : Nat), cells[c]? = some cell → cell.parent = some p → p < cell.node

theorem WFB.init (fl : Flavor) : WFB fl (Builder.new : Builder α) [] :=
  ⟨Nat.zero_le _, NOk.nil, by simp [Builder.new], rfl, trivial⟩

theorem WFB.parent_lt {fl : Flavor} {b : Builder α} {st : List Nat} (h : WFB fl b st) {p : Nat}
    (hp : b.parent = some p) : p < b.tree.nodes.length := by
  rw [h.top] at hp
  exact h.chain.lt (List.mem_of_mem_head? hp)

theorem modifyOpt_nodes (t : Tree α) (o : Option Nat) (f : Links α → Links α) :
    (t.modifyOpt o f).nodes = match o with
      | some i => t.nodes.modify i f
      | none => t.nodes := by
  cases o <;> rfl

/-- A change of entries that keeps `parent`. -/
theorem OpenChain.modify {nodes : List (Links α)} {st : List Nat} (h : OpenChain nodes st)
    (i : Nat) (f : Links α → Links α) (hf : ∀ l, (f l).parent = l.parent) :
    OpenChain (nodes.modify i f) st := by
  refine h.mono ?_
  intro p _ l hl
  by_cases hi : i = p
  · exact ⟨f l, by rw [List.getElem?_modify, hl]; simp [hi], hf l⟩
  · exact ⟨l, by rw [List.getElem?_modify, hl]; simp [hi], rfl⟩

theorem OpenChain.push {nodes : List (Links α)} {st : List Nat} (h : OpenChain nodes st)
    (l : Links α) : OpenChain (nodes ++ [l]) st := by
  refine h.mono ?_
  intro p hp l' hl
  exact ⟨l', by rw [List.getElem?_append_left (h.lt hp)]; exact hl, rfl⟩

/-- What `insert` does to a well-formed builder with room. -/
theorem WFB.insert {fl : Flavor} {b : Builder α} {st : List Nat} (h : WFB fl b st)
    (hc : b.tree.nodes.length < 2 ^ fl.width - 1) (d : α) (sp : Span) :
    ∃ b', b.insert fl d sp = (b', .ok b.tree.nodes.length) ∧
      b'.tree.nodes.length = b.tree.nodes.length + 1 ∧ b'.parent = b.parent ∧
      b'.sibling = none ∧ b'.cursor = b.cursor ∧ b'.checkpoint = b.checkpoint ∧
      b'.tree.span = b.tree.span ∧ b'.tree.indexes = b.tree.indexes ∧
      WFB fl b' st ∧ WFB fl { b' with parent := some b.tree.nodes.length }
        (b.tree.nodes.length :: st) := by
  unfold Builder.insert
  simp only [Tree.len]
  rw [ptrNew_eq, if_pos hc]
  simp only
  have n1 : NOk (b.tree.nodes ++ [(⟨d, sp, b.parent, b.sibling, none, none, none⟩ : Links α)]) :=
    h.nok.push rfl (fun j hj => h.parent_lt hj)
  have c1 := h.chain.push ⟨d, sp, b.parent, b.sibling, none, none, none⟩
  have l1 : (b.tree.nodes ++ [(⟨d, sp, b.parent, b.sibling, none, none, none⟩ : Links α)])[
        b.tree.nodes.length]? = some ⟨d, sp, b.parent, b.sibling, none, none, none⟩ := by simp
  -- the table after the two updates
  have key : ∀ (nodes1 nodes2 : List (Links α)), NOk nodes1 → OpenChain nodes1 st →
      nodes1.length = b.tree.nodes.length + 1 →
      (∃ l, nodes1[b.tree.nodes.length]? = some l ∧ l.parent = b.parent) →
      nodes2 = (match b.sibling with
        | some i => nodes1.modify i (fun l => { l with next := some b.tree.nodes.length })
        | none => nodes1) →
      NOk nodes2 ∧ OpenChain nodes2 st ∧ nodes2.length = b.tree.nodes.length + 1 ∧
      (∃ l, nodes2[b.tree.nodes.length]? = some l ∧ l.parent = b.parent) := by
    intro nodes1 nodes2 hn hch hl ⟨l, hget, hpar⟩ he
    cases hs : b.sibling with
    | none => rw [hs] at he; simp only at he; subst he; exact ⟨hn, hch, hl, l, hget, hpar⟩
    | some i =>
      rw [hs] at he; simp only at he; subst he
      have hi := h.sib i hs
      refine ⟨hn.modify i _ ?_, hch.modify i _ (fun _ => rfl), by simp [hl], l, ?_, hpar⟩
      · intro l
        refine ⟨.inr ?_, .inl rfl⟩
        intro j hj; simp at hj; omega
      · rw [List.getElem?_modify, hget]; simp; omega
  have fin : ∀ (t : Tree α), NOk t.nodes → OpenChain t.nodes st →
      t.nodes.length = b.tree.nodes.length + 1 →
      (∃ l, t.nodes[b.tree.nodes.length]? = some l ∧ l.parent = b.parent) →
      WFB fl { b with tree := t, sibling := none } st ∧
      WFB fl ({ b with tree := t, sibling := none, parent := some b.tree.nodes.length })
        (b.tree.nodes.length :: st) := by
    intro t hn hch hl hget
    refine ⟨⟨by simp only; omega, hn, by simp, h.top, hch⟩,
      ⟨by simp only; omega, hn, by simp, rfl, ?_⟩⟩
    refine ⟨?_, fun q hq => h.chain.lt hq, hch⟩
    obtain ⟨l, h1, h2⟩ := hget
    exact ⟨l, h1, h2.trans h.top⟩
  cases hp : b.parent with
  | none =>
    obtain ⟨k1, k2, k3, k4⟩ := key _ _ n1 c1 (by simp) ⟨_, l1, rfl⟩ rfl
    rw [hp] at k1 k2 k3 k4
    refine ⟨_, rfl, ?_, rfl, rfl, rfl, rfl, ?_, ?_, ?_⟩
    · simp only [modifyOpt_nodes, Tree.addRoot, Tree.push]; exact k3
    · cases b.sibling <;> rfl
    · cases b.sibling <;> rfl
    · have := fin (Tree.modifyOpt ((b.tree.push ⟨d, sp, none, b.sibling, none, none, none⟩).addRoot
          b.tree.nodes.length) b.sibling fun l => { l with next := some b.tree.nodes.length })
        (by simp only [modifyOpt_nodes, Tree.addRoot, Tree.push]; exact k1)
        (by simp only [modifyOpt_nodes, Tree.addRoot, Tree.push]; exact k2)
        (by simp only [modifyOpt_nodes, Tree.addRoot, Tree.push]; exact k3)
        (by simp only [modifyOpt_nodes, Tree.addRoot, Tree.push]; rw [hp]; exact k4)
      simpa only [hp] using this
  | some p =>
    rw [hp] at n1 c1 l1
    have hpl := h.parent_lt hp
    obtain ⟨k1, k2, k3, k4⟩ := key _ _ (n1.modify p (Links.addChild b.tree.nodes.length sp)
      (fun l => ⟨.inl rfl, .inl rfl⟩)) (c1.modify p _ (fun _ => rfl)) (by simp)
      ⟨⟨d, sp, some p, b.sibling, none, none, none⟩,
        by rw [List.getElem?_modify, l1]; simp; intro; omega, hp.symm⟩ rfl
    refine ⟨_, rfl, ?_, rfl, rfl, rfl, rfl, ?_, ?_, ?_⟩
    · simp only [modifyOpt_nodes, Tree.modifyNode, Tree.push]; exact k3
    · cases b.sibling <;> rfl
    · cases b.sibling <;> rfl
    · have := fin (Tree.modifyOpt ((b.tree.push ⟨d, sp, some p, b.sibling, none, none, none⟩).modifyNode p
          (Links.addChild b.tree.nodes.length sp)) b.sibling
          fun l => { l with next := some b.tree.nodes.length })
        (by simp only [modifyOpt_nodes, Tree.modifyNode, Tree.push]; exact k1)
        (by simp only [modifyOpt_nodes, Tree.modifyNode, Tree.push]; exact k2)
        (by simp only [modifyOpt_nodes, Tree.modifyNode, Tree.push]; exact k3)
        (by simp only [modifyOpt_nodes, Tree.modifyNode, Tree.push]; exact k4)
      simpa only [hp] using this

/-- What re-parenting may do to the table: from entry `lo` on, set the parent to `pid`. -/
structure Moved (pid lo : Nat) (nodes nodes' : List (Links α)) : Prop where
  len : nodes'.length = nodes.length
  get : ∀ (i : Nat) (l' : Links α), nodes'[i]? = some l' → ∃ l, nodes[i]? = some l ∧
    l'.next = l.next ∧ (l'.parent = l.parent ∨ (lo ≤ i ∧ l'.parent = some pid))

theorem Moved.get' {pid lo : Nat} {nodes nodes' : List (Links α)} (h : Moved pid lo nodes nodes')
    {i : Nat} {l : Links α} (hl : nodes[i]? = some l) : ∃ l', nodes'[i]? = some l' ∧
      l'.next = l.next ∧ (l'.parent = l.parent ∨ (lo ≤ i ∧ l'.parent = some pid)) := by
  have hi : i < nodes'.length := by rw [h.len]; exact (List.getElem?_eq_some_iff.1 hl).1
  obtain ⟨l2, h1, h2⟩ := h.get i nodes'[i] (List.getElem?_eq_getElem hi)
  rw [hl] at h1; simp at h1; subst h1
  exact ⟨_, List.getElem?_eq_getElem hi, h2⟩

theorem Moved.trans {pid lo lo' : Nat} {a b c : List (Links α)} (h : Moved pid lo a b)
    (h' : Moved pid lo' b c) (hlo : lo ≤ lo') : Moved pid lo a c := by
  refine ⟨h'.len.trans h.len, ?_⟩
  intro i l' hi
  obtain ⟨l1, h1, h2, h3⟩ := h'.get i l' hi
  obtain ⟨l2, h4, h5, h6⟩ := h.get i l1 h1
  refine ⟨l2, h4, h2.trans h5, ?_⟩
  rcases h3 with h3 | ⟨h3, h3'⟩
  · rcases h6 with h6 | ⟨h6, h6'⟩
    · exact .inl (h3.trans h6)
    · exact .inr ⟨h6, h3.trans h6'⟩
  · exact .inr ⟨by omega, h3'⟩

theorem Moved.set {pid i : Nat} {nodes : List (Links α)} {l l' : Links α}
    (hl : nodes[i]? = some l) (hn : l'.next = l.next) (hp : l'.parent = some pid) :
    Moved pid i nodes (nodes.set i l') := by
  refine ⟨by simp, ?_⟩
  intro k m hk
  rw [List.getElem?_set] at hk
  by_cases hki : i = k
  · subst hki
    simp only [if_true] at hk
    split at hk
    · simp at hk; subst hk; exact ⟨l, hl, hn, .inr ⟨Nat.le_refl _, hp⟩⟩
    · simp at hk
  · rw [if_neg hki] at hk
    exact ⟨m, hk, rfl, .inl rfl⟩

def NextOk (nodes : List (Links α)) : Prop :=
  ∀ (i : Nat) (l : Links α) (j : Nat), nodes[i]? = some l → l.next = some j →
    i < j ∧ j < nodes.length

theorem Moved.nextOk {pid lo : Nat} {nodes nodes' : List (Links α)} (h : Moved pid lo nodes nodes')
    (hn : NextOk nodes) : NextOk nodes' := by
  intro i l' j hi hj
  obtain ⟨l, h1, h2, _⟩ := h.get i l' hi
  rw [h.len]
  exact hn i l j h1 (h2 ▸ hj)

theorem restructure_ok (pid fuel : Nat) (nodes : List (Links α)) (cur : Nat) (hn : NextOk nodes)
    (hc : cur < nodes.length) (hf : nodes.length - cur ≤ fuel) :
    ∃ nodes' last stop, restructure pid fuel nodes cur = (nodes', .ok (last, stop)) ∧
      Moved pid cur nodes nodes' := by
  induction fuel generalizing nodes cur with
  | zero => omega
  | succ fuel ih =>
    unfold restructure
    obtain ⟨lc, hl⟩ : ∃ lc, nodes[cur]? = some lc := ⟨_, List.getElem?_eq_getElem hc⟩
    rw [hl]
    simp only
    have hm : Moved pid cur nodes (nodes.set cur { lc with parent := some pid }) :=
      Moved.set hl rfl rfl
    cases hx : lc.next with
    | none => rw [hx] at hm; exact ⟨_, _, _, rfl, hm⟩
    | some j =>
      rw [hx] at hm
      have hj := hn cur _ j hl hx
      obtain ⟨nodes', last, stop, e, hm'⟩ := ih _ j (hm.nextOk hn) (by simpa using hj.2)
        (by simp; omega)
      exact ⟨nodes', last, stop, e, hm.trans hm' (by omega)⟩

theorem reparent_ok {nodes : List (Links α)} (newId id : Nat) {links : Links α} (hn : NextOk nodes)
    (hl : nodes[id]? = some links) :
    ∃ nodes' last span, reparent newId id links nodes = (nodes', .ok (last, span)) ∧
      Moved newId id nodes nodes' := by
  unfold reparent
  have hm : Moved newId id nodes
      (nodes.set id { links with parent := some newId, prev := none }) := Moved.set hl rfl rfl
  cases hx : links.next with
  | none => rw [hx] at hm; exact ⟨_, _, _, rfl, hm⟩
  | some j =>
    rw [hx] at hm
    have hj := hn id _ j hl hx
    obtain ⟨nodes', last, stop, e, hm'⟩ := restructure_ok newId (nodes.length + 1) _ j
      (hm.nextOk hn) (by simpa using hj.2) (by simp; omega)
    simp only [List.length_set]
    rw [e]
    exact ⟨_, _, _, rfl, hm.trans hm' (by omega)⟩

theorem relink_nodes (t : Tree α) (id newId : Nat) (parent prev : Option Nat) (new : Links α) :
    ∃ f g : Links α → Links α, (∀ l, (f l).next = l.next ∧ (f l).parent = l.parent) ∧
      (∀ l, (g l).next = some newId ∧ (g l).parent = l.parent) ∧
      (t.relink id newId parent prev new).nodes = ((t.modifyOpt parent f).modifyOpt prev g).nodes
        ++ [new] := by
  refine ⟨fun p => ⟨p.data, p.span, p.parent, p.prev, p.next,
    if p.first = some id then some newId else p.first,
    if p.last = some id then some newId else p.last⟩, fun p => { p with next := some newId },
    fun l => ⟨rfl, rfl⟩, fun l => ⟨rfl, rfl⟩, rfl⟩

/-- `close_at` with a checkpoint of the same level and room for one more node. -/
theorem WFB.closeAt {fl : Flavor} {b : Builder α} {st : List Nat} (h : WFB fl b st)
    {cells : Cells} (hcell : CellsOk cells) {c : Nat} {cell : Cell} (hc : cells[c]? = some cell)
    (hp : cell.parent = b.parent) (hroom : b.tree.nodes.length < 2 ^ fl.width - 1) (d : α)
    (explicit : Option Span) :
    ∃ cells' b', b.closeAtCore fl cells c d explicit = (cells', b',
        if cell.node ≤ b.tree.nodes.length then .ok b.tree.nodes.length
        else .error (.missingNode b.tree.nodes.length)) ∧
      CellsOk cells' ∧ cells'.length = cells.length ∧ WFB fl b' st ∧
      b'.tree.nodes.length = b.tree.nodes.length + 1 ∧ b'.cursor = b.cursor ∧
      (∀ c', c' ≠ c → cells'[c']? = cells[c']?) ∧
      (∀ cell', cells'[c]? = some cell' → cell' = cell ∨ cell'.node = b.tree.nodes.length) := by
  unfold Builder.closeAtCore
  rw [hc]
  simp only [hp, ne_eq, not_true_eq_false, if_false, Tree.len]
  rw [ptrNew_eq, if_pos hroom]
  simp only
  cases hl : b.tree.nodes[cell.node]? with
  | none =>
    have hge : b.tree.nodes.length ≤ cell.node := by
      rcases Nat.lt_or_ge cell.node b.tree.nodes.length with hlt | hge
      · rw [List.getElem?_eq_getElem hlt] at hl; simp at hl
      · exact hge
    obtain ⟨b', e, e1, e2, e3, e4, e5, e6, e7, e8, _⟩ :=
      h.insert hroom d (explicit.getD (Span.point b.cursor))
    simp only
    rw [e]
    simp only
    by_cases heq : b.tree.nodes.length = cell.node
    · rw [if_neg (by simpa using heq), if_pos (by omega)]
      refine ⟨_, _, rfl, hcell, rfl, ?_, e1, e4, fun _ _ => rfl, fun c' hc' => ?_⟩
      · exact ⟨e8.cap, e8.nok, by intro j hj; simp at hj; simp only; omega, e8.top, e8.chain⟩
      · rw [hc] at hc'; simp at hc'; exact .inl hc'.symm
    · rw [if_pos heq, if_neg (by omega)]
      refine ⟨_, _, rfl, hcell, rfl, e8, e1, e4, fun _ _ => rfl, fun c' hc' => ?_⟩
      rw [hc] at hc'; simp at hc'; exact .inl hc'.symm
  | some links =>
    have hlt := (List.getElem?_eq_some_iff.1 hl).1
    obtain ⟨nodes', last, span, e, hm⟩ :=
      reparent_ok b.tree.nodes.length cell.node h.nok.next hl
    simp only
    rw [e]
    simp only
    rw [if_pos (by omega)]
    -- an open node is not moved
    have hopen : ∀ p ∈ st, p < cell.node := by
      intro p hpm
      cases st with
      | nil => simp at hpm
      | cons q st =>
        have hq : b.parent = some q := by rw [h.top]; rfl
        have h1 := h.chain.le_head (p := q) rfl hpm
        have h2 := hcell c cell q hc (hp.trans hq)
        omega
    have hpar : ∀ j, links.parent = some j → j < b.tree.nodes.length :=
      fun j hj => h.nok.par _ _ j hl hj
    -- the table after relinking
    have hfin : ∀ new : Links α, new.next = none → new.parent = links.parent →
        NOk (Tree.relink { b.tree with nodes := nodes' } cell.node b.tree.nodes.length links.parent
          links.prev new).nodes ∧
        OpenChain (Tree.relink { b.tree with nodes := nodes' } cell.node b.tree.nodes.length
          links.parent links.prev new).nodes st ∧
        (Tree.relink { b.tree with nodes := nodes' } cell.node b.tree.nodes.length links.parent
          links.prev new).nodes.length = b.tree.nodes.length + 1 := by
      intro new hnn hnp
      obtain ⟨f, g, hf, hg, en⟩ := relink_nodes { b.tree with nodes := nodes' } cell.node
        b.tree.nodes.length links.parent links.prev new
      rw [en]
      have hlen : ((Tree.modifyOpt { b.tree with nodes := nodes' } links.parent f).modifyOpt
          links.prev g).nodes.length = b.tree.nodes.length := by
        rw [modifyOpt_nodes]
        cases links.prev <;> simp only [modifyOpt_nodes] <;> cases links.parent <;>
          simp [hm.len]
      -- every entry
      have hget : ∀ (i : Nat) (l' : Links α),
          ((Tree.modifyOpt { b.tree with nodes := nodes' } links.parent f).modifyOpt
            links.prev g).nodes[i]? = some l' → ∃ l, b.tree.nodes[i]? = some l ∧
            (l'.next = l.next ∨ l'.next = some b.tree.nodes.length) ∧
            (l'.parent = l.parent ∨ (cell.node ≤ i ∧
              l'.parent = some b.tree.nodes.length)) := by
        intro i l' hi
        have s1 : ∃ l1, (Tree.modifyOpt { b.tree with nodes := nodes' } links.parent f).nodes[i]?
            = some l1 ∧ (l'.next = l1.next ∨ l'.next = some b.tree.nodes.length) ∧
            l'.parent = l1.parent := by
          rw [modifyOpt_nodes] at hi
          cases hpv : links.prev with
          | none => rw [hpv] at hi; exact ⟨l', hi, .inl rfl, rfl⟩
          | some q =>
            rw [hpv] at hi
            obtain ⟨l1, h1, ⟨_, rfl⟩ | ⟨_, rfl⟩⟩ := modify_get hi
            · exact ⟨l1, h1, .inr (hg l1).1, (hg l1).2⟩
            · exact ⟨l', h1, .inl rfl, rfl⟩
        obtain ⟨l1, h1, h2, h3⟩ := s1
        have s2 : ∃ l2, nodes'[i]? = some l2 ∧ l1.next = l2.next ∧ l1.parent = l2.parent := by
          rw [modifyOpt_nodes] at h1
          cases hpv : links.parent with
          | none => rw [hpv] at h1; exact ⟨l1, h1, rfl, rfl⟩
          | some q =>
            rw [hpv] at h1
            obtain ⟨l2, h4, ⟨_, rfl⟩ | ⟨_, rfl⟩⟩ := modify_get h1
            · exact ⟨l2, h4, (hf l2).1, (hf l2).2⟩
            · exact ⟨l1, h4, rfl, rfl⟩
        obtain ⟨l2, h4, h5, h6⟩ := s2
        obtain ⟨l, h7, h8, h9⟩ := hm.get i l2 h4
        refine ⟨l, h7, ?_, ?_⟩
        · rw [h5, h8] at h2; exact h2
        · rw [h3, h6]; exact h9
      refine ⟨?_, ?_, by simp [hlen]⟩
      · constructor
        · intro i l' j hi hj
          rw [List.length_append, hlen, List.length_singleton]
          rcases Nat.lt_or_ge i b.tree.nodes.length with hlt2 | hge
          · rw [List.getElem?_append_left (by omega)] at hi
            obtain ⟨l, h1, h2, _⟩ := hget i l' hi
            rcases h2 with h2 | h2
            · have := h.nok.next i l j h1 (h2 ▸ hj); omega
            · rw [h2] at hj; simp at hj; omega
          · rw [List.getElem?_append_right (by omega), hlen] at hi
            rcases Nat.eq_zero_or_pos (i - b.tree.nodes.length) with h0 | h0
            · rw [h0] at hi; simp at hi; subst hi; rw [hnn] at hj; simp at hj
            · rw [List.getElem?_eq_none (by simp; omega)] at hi; simp at hi
        · intro i l' j hi hj
          rw [List.length_append, hlen, List.length_singleton]
          rcases Nat.lt_or_ge i b.tree.nodes.length with hlt2 | hge
          · rw [List.getElem?_append_left (by omega)] at hi
            obtain ⟨l, h1, _, h2⟩ := hget i l' hi
            rcases h2 with h2 | ⟨_, h2⟩
            · have := h.nok.par i l j h1 (h2 ▸ hj); omega
            · rw [h2] at hj; simp at hj; omega
          · rw [List.getElem?_append_right (by omega), hlen] at hi
            rcases Nat.eq_zero_or_pos (i - b.tree.nodes.length) with h0 | h0
            · rw [h0] at hi; simp at hi; subst hi; rw [hnp] at hj; have := hpar j hj; omega
            · rw [List.getElem?_eq_none (by simp; omega)] at hi; simp at hi
      · refine h.chain.mono ?_
        intro p hpm l hlp
        have hpl := h.chain.lt hpm
        have hpn := hopen p hpm
        rw [List.getElem?_append_left (by omega)]
        have hi2 : p < ((Tree.modifyOpt { b.tree with nodes := nodes' } links.parent f).modifyOpt
          links.prev g).nodes.length := by omega
        refine ⟨_, List.getElem?_eq_getElem hi2, ?_⟩
        obtain ⟨l2, h1, _, h2⟩ := hget p _ (List.getElem?_eq_getElem hi2)
        rw [hlp] at h1; simp at h1; subst h1
        rcases h2 with h2 | ⟨h2, _⟩
        · exact h2
        · omega
    obtain ⟨f1, f2, f3⟩ := hfin ⟨d, explicit.getD span, links.parent, links.prev, none,
      some cell.node, some last⟩ rfl rfl
    refine ⟨_, _, rfl, ?_, by simp, ?_, f3, rfl, ?_, ?_⟩
    · intro c' cell' p' hc' hp'
      rw [List.getElem?_set] at hc'
      by_cases hcc : c = c'
      · subst hcc
        simp only [if_true] at hc'
        split at hc'
        · simp at hc'; subst hc'; exact hpar p' hp'
        · simp at hc'
      · rw [if_neg hcc] at hc'; exact hcell c' cell' p' hc' hp'
    · exact ⟨by simp only [f3]; omega, f1, by intro j hj; simp at hj; simp only [f3]; omega,
        h.top, f2⟩
    · intro c' hne
      rw [List.getElem?_set, if_neg (fun e => hne e.symm)]
    · intro cell' hc'
      rw [List.getElem?_set] at hc'
      simp only [if_true] at hc'
      split at hc'
      · simp at hc'; subst hc'; exact .inr rfl
      · simp at hc'

end Syntree
