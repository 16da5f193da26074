import Verif.Proof.Outcome
import Verif.Proof.Ckpt

/-! The level a checkpoint belongs to, over every history of one builder, whatever checkpoints are
used. -/

namespace Syntree

variable {α : Type} {fl : Flavor}

/-- The parents in the table. -/
def pars (ns : List (Links α)) : List (Option Nat) := ns.map (·.parent)

theorem pars_length (ns : List (Links α)) : (pars ns).length = ns.length := by simp [pars]

theorem pars_modify (ns : List (Links α)) (i : Nat) (f : Links α → Links α)
    (hf : ∀ l, (f l).parent = l.parent) : pars (ns.modify i f) = pars ns := by
  apply List.ext_getElem?
  intro k
  simp only [pars, List.getElem?_map, List.getElem?_modify]
  cases ns[k]? with
  | none => rfl
  | some l =>
    simp only [Option.map_some]
    by_cases h : i = k
    · simp [h, hf]
    · simp [h]

theorem pars_modifyOpt (t : Tree α) (o : Option Nat) (f : Links α → Links α)
    (hf : ∀ l, (f l).parent = l.parent) : pars (t.modifyOpt o f).nodes = pars t.nodes := by
  cases o with
  | none => rfl
  | some i => exact pars_modify _ _ _ hf

theorem insert_pars (b : Builder α) (d : α) (sp : Span) :
    b.insert fl d sp = (b, .error .overflow) ∨
    ∃ b', b.insert fl d sp = (b', .ok b.tree.nodes.length) ∧ b'.parent = b.parent ∧
      pars b'.tree.nodes = pars b.tree.nodes ++ [b.parent] := by
  unfold Builder.insert
  simp only [Tree.len]
  rw [ptrNew_eq]
  by_cases h : b.tree.nodes.length < 2 ^ fl.width - 1
  · rw [if_pos h]
    refine .inr ⟨_, rfl, rfl, ?_⟩
    simp only
    refine (pars_modifyOpt _ _ _ (fun l => by rfl)).trans ?_
    cases b.parent with
    | none => simp [pars, Tree.addRoot, Tree.push]
    | some p =>
      simp only [Tree.modifyNode, Tree.push]
      refine (pars_modify _ _ _ (fun l => by rfl)).trans ?_
      simp [pars]
  · rw [if_neg h]; exact .inl rfl

/-- What a call does to the parents in the table and to the cells. -/
inductive Kind (s s' : Sys α) : Prop where
  /-- nothing -/
  | same (hp : pars s'.b.tree.nodes = pars s.b.tree.nodes) (hc : s'.cells = s.cells)
  /-- a checkpoint is taken -/
  | cell (hp : pars s'.b.tree.nodes = pars s.b.tree.nodes) (hb : s'.b.parent = s.b.parent)
      (hc : s'.cells = s.cells ++ [⟨s.b.tree.nodes.length, s.b.parent⟩])
  /-- a node is added to the node being built -/
  | added (hp : pars s'.b.tree.nodes = pars s.b.tree.nodes ++ [s.b.parent]) (hc : s'.cells = s.cells)
  /-- a checkpoint is used -/
  | wrapped (c : Nat) (cell : Cell) (q : Option Nat) (hcell : s.cells[c]? = some cell)
      (hpar : cell.parent = s.b.parent) (hq : (pars s.b.tree.nodes)[cell.node]? = some q)
      (hb : s'.b.parent = s.b.parent)
      (hl : (pars s'.b.tree.nodes).length = (pars s.b.tree.nodes).length + 1)
      (hp : ∀ i < s.b.tree.nodes.length, (pars s'.b.tree.nodes)[i]? = (pars s.b.tree.nodes)[i]? ∨
        (pars s'.b.tree.nodes)[i]? = some (some s.b.tree.nodes.length))
      (hn : (pars s'.b.tree.nodes)[s.b.tree.nodes.length]? = some q)
      (hc : s'.cells = s.cells.set c ⟨s.b.tree.nodes.length, q⟩)

theorem Kind.openWith (s : Sys α) (d : α) (sp : Span) :
    Kind s (s.lift .id (s.b.openWith fl d sp)).1 := by
  unfold Builder.openWith
  rcases insert_pars (fl := fl) s.b d sp with e | ⟨b', e, _, e2⟩
  · rw [e]; exact .same rfl rfl
  · rw [e]; exact .added e2 rfl

theorem Kind.token (s : Sys α) (d : α) (len : Nat) : Kind s (s.lift .id (s.b.token fl d len)).1 := by
  unfold Builder.token
  have key : ∀ b1 : Builder α, b1.tree.nodes = s.b.tree.nodes → b1.parent = s.b.parent →
      Kind s (s.lift .id (match b1.insert fl d (Span.new s.b.cursor b1.cursor) with
        | (b, .error e) => (b, .error e)
        | (b, .ok id) =>
          let b := { b with sibling := some id }
          if fl.ik.lenIsEmpty len then (b, .ok id)
          else ({ b with tree := b.tree.pushIndex fl ⟨b.cursor, id⟩ }, .ok id) : Res α Nat)).1 := by
    intro b1 h1 h2
    rcases insert_pars (fl := fl) b1 d (Span.new s.b.cursor b1.cursor) with e | ⟨b', e, _, e2⟩
    · rw [e]; exact .same (by simp only [Sys.lift]; rw [h1]) rfl
    · rw [e]
      simp only
      rw [h1, h2] at e2
      split
      · exact .added e2 rfl
      · refine .added ?_ rfl
        simp only [Sys.lift, pushIndex_nodes]
        exact e2
  dsimp only
  cases he : fl.ik.lenIsEmpty len with
  | true =>
    have := key s.b rfl rfl
    simp only [he, if_true] at this ⊢
    exact this
  | false =>
    simp only [Bool.false_eq_true, if_false]
    cases ha : fl.ik.checkedAddLen s.b.cursor len with
    | none => exact .same rfl rfl
    | some c =>
      have := key { s.b with
          cursor := c, tree := { s.b.tree with span := { s.b.tree.span with stop := c } } } rfl rfl
      simp only [he, Bool.false_eq_true, if_false] at this
      exact this

theorem Kind.tokenWith (s : Sys α) (d : α) (sp : Span) :
    Kind s (s.step fl (.tokenWith d sp)).1 := by
  simp only [Sys.step, Builder.tokenWith]
  rcases insert_pars (fl := fl) s.b d sp with e | ⟨b', e, _, e2⟩
  · rw [e]; exact .same rfl rfl
  · rw [e]
    refine .added ?_ rfl
    simp only [Sys.lift]
    refine (pars_modifyOpt _ _ _ (fun l => by rfl)).trans ?_
    rw [pushIndex_nodes]; exact e2

theorem Kind.close (s : Sys α) : Kind s (s.step fl .close).1 := by
  simp only [Sys.step, Builder.close]
  cases s.b.parent with
  | none => exact .same rfl rfl
  | some head =>
    simp only
    cases s.b.tree.nodes[head]? with
    | none => exact .same rfl rfl
    | some l =>
      simp only
      cases l.parent with
      | none => exact .same rfl rfl
      | some id =>
        simp only
        split
        · refine .same ?_ rfl
          simp only [Sys.lift, Tree.modifyNode]
          exact pars_modify _ _ _ (fun l => by rfl)
        · exact .same rfl rfl

theorem Kind.checkpoint (s : Sys α) : Kind s (s.step fl .checkpoint).1 := by
  simp only [Sys.step, Builder.mkCheckpoint, Tree.len]
  rw [ptrNew_eq]
  by_cases hc : s.b.tree.nodes.length < 2 ^ fl.width - 1
  · rw [if_pos hc]
    simp only
    cases s.b.checkpoint with
    | none => exact .cell rfl rfl rfl
    | some c =>
      simp only
      cases s.cells[c]? with
      | none => exact .cell rfl rfl rfl
      | some cell =>
        simp only
        by_cases he : cell.node = s.b.tree.nodes.length ∧ cell.parent = s.b.parent
        · rw [if_pos he]; exact .same rfl rfl
        · rw [if_neg he]; exact .cell rfl rfl rfl
  · rw [if_neg hc]; exact .same rfl rfl

theorem Moved.pars {pid lo : Nat} {a b : List (Links α)} (h : Moved pid lo a b) (i : Nat) :
    (pars b)[i]? = (pars a)[i]? ∨ (pars b)[i]? = some (some pid) := by
  simp only [Syntree.pars, List.getElem?_map]
  rcases Nat.lt_or_ge i b.length with hi | hi
  · obtain ⟨l, h1, _, h2⟩ := h.get i b[i] (List.getElem?_eq_getElem hi)
    rw [h1, List.getElem?_eq_getElem hi]
    simp only [Option.map_some, Option.some.injEq]
    rcases h2 with h2 | h2
    · exact .inl h2
    · exact .inr h2.2
  · rw [List.getElem?_eq_none hi, List.getElem?_eq_none (by rw [← h.len]; exact hi)]
    exact .inl rfl

theorem Kind.closeAt {s : Sys α} {st : List Nat} (h : Alone fl s st) (k : Nat) (d : α)
    (explicit : Option Span) :
    Kind s (match s.handles[k]? with
      | none => (s, .ok .unit)
      | some c =>
        let r := s.b.closeAtCore fl s.cells c d explicit
        ({ s with b := r.2.1, cells := r.1 }, r.2.2.map .id) : Sys α × Except Err Out).1 := by
  cases hk : s.handles[k]? with
  | none => exact .same rfl rfl
  | some c =>
    have hcl := h.good.handles k c hk
    obtain ⟨cell, hcell⟩ : ∃ cell, s.cells[c]? = some cell := ⟨_, List.getElem?_eq_getElem hcl⟩
    simp only [Builder.closeAtCore, hcell, Tree.len]
    by_cases hp : cell.parent = s.b.parent
    · rw [if_neg (by simpa using hp), ptrNew_eq]
      by_cases hroom : s.b.tree.nodes.length < 2 ^ fl.width - 1
      · rw [if_pos hroom]
        simp only
        cases hl : s.b.tree.nodes[cell.node]? with
        | none =>
          simp only
          rcases insert_pars (fl := fl) s.b d (explicit.getD (Span.point s.b.cursor)) with
            e | ⟨b', e, _, e2⟩
          · rw [e]; exact .same rfl rfl
          · rw [e]
            simp only
            split
            · exact .added e2 rfl
            · exact .added e2 rfl
        | some links =>
          simp only
          obtain ⟨nodes', last, span, e, hm⟩ :=
            reparent_ok s.b.tree.nodes.length cell.node h.good.wf.nok.next hl
          rw [e]
          simp only
          obtain ⟨f, g, hf, hg, en⟩ := relink_nodes { s.b.tree with nodes := nodes' } cell.node
            s.b.tree.nodes.length links.parent links.prev
            ⟨d, explicit.getD span, links.parent, links.prev, none, some cell.node, some last⟩
          have ep : pars (Tree.relink { s.b.tree with nodes := nodes' } cell.node
              s.b.tree.nodes.length links.parent links.prev
              ⟨d, explicit.getD span, links.parent, links.prev, none, some cell.node, some last⟩).nodes
              = pars nodes' ++ [links.parent] := by
            rw [en]
            unfold pars
            rw [List.map_append]
            congr 1
            refine (pars_modifyOpt _ _ _ (fun l => (hg l).2)).trans ?_
            exact pars_modifyOpt _ _ _ (fun l => (hf l).2)
          have hlen : (pars nodes').length = s.b.tree.nodes.length := by
            rw [pars_length, hm.len]
          refine .wrapped c cell links.parent hcell hp ?_ rfl ?_ ?_ ?_ rfl
          · simp [pars, hl]
          · simp only [ep, List.length_append, hlen, pars_length]; rfl
          · intro i hi
            simp only [ep]
            rw [List.getElem?_append_left (by rw [hlen]; exact hi)]
            exact hm.pars i
          · simp only [ep]
            rw [List.getElem?_append_right (by rw [hlen]; exact Nat.le_refl _), hlen]
            simp
      · rw [if_neg hroom]; exact .same rfl rfl
    · rw [if_pos hp]; exact .same rfl rfl

theorem Kind.step {s : Sys α} {st : List Nat} (h : Alone fl s st) (op : Op α) :
    Kind s (s.step fl op).1 := by
  cases op with
  | «open» d => exact .openWith s d _
  | openWith d sp => exact .openWith s d sp
  | close => exact .close s
  | token d n => exact .token s d n
  | tokenEmpty d => exact .token s d 0
  | tokenWith d sp => exact .tokenWith s d sp
  | checkpoint => exact .checkpoint s
  | closeAt k d => exact .closeAt h k d none
  | closeAtWith k d sp => exact .closeAt h k d (some sp)
  | setCursor i => exact .same rfl rfl

/-- A node that exists and is not open. -/
def Gone (s : Sys α) (st : List Nat) (o : Option Nat) : Prop :=
  ∃ j, o = some j ∧ j < s.b.tree.nodes.length ∧ j ∉ st

/-- The invariant: a checkpoint of a level that is still being built stands for a node of this level,
unless it has been swallowed. -/
def FramesOk (s : Sys α) (st : List Nat) : Prop :=
  ∀ (c : Nat) (cell : Cell), s.cells[c]? = some cell → Gone s st cell.parent ∨
    ((s.b.tree.nodes.length ≤ cell.node → cell.parent = s.b.parent) ∧
      ∀ q, (pars s.b.tree.nodes)[cell.node]? = some q → q = cell.parent ∨ Gone s st q)

/-- What a call does to the open nodes. -/
theorem Alone.opened {s : Sys α} {st : List Nat} (h : Alone fl s st) (op : Op α) :
    Alone fl (s.step fl op).1 (openAfter st op (s.step fl op).2) ∧
    (∀ j ∈ openAfter st op (s.step fl op).2, j ∈ st ∨ s.b.tree.nodes.length ≤ j) ∧
    ((s.step fl op).1.b.parent = s.b.parent ∨
      s.b.tree.nodes.length < (s.step fl op).1.b.tree.nodes.length ∨
      Gone (s.step fl op).1 (openAfter st op (s.step fl op).2) s.b.parent) := by
  obtain ⟨e, st', he⟩ := h.good.step op
  have hst := he.opened
  subst hst
  have hA : Alone fl (s.step fl op).1 (openAfter st op (s.step fl op).2) :=
    ⟨by rw [e]; exact he.good, h.good.own_step h.own op⟩
  have hn : ∀ o, expected fl s op = o → ∀ i, o = .ok (.id i) → i = s.b.tree.nodes.length := by
    intro o ho i hi
    subst hi
    have hnn : ∀ {n : Nat}, newNode fl n = .ok (.id i) → i = n := by
      intro n hx; unfold newNode at hx; split at hx
      · simp at hx; exact hx.symm
      · simp at hx
    have hcc : ∀ k, expectedCloseAt fl s k = .ok (.id i) → i = s.b.tree.nodes.length := by
      intro k hx
      unfold expectedCloseAt at hx
      repeat' split at hx
      all_goals first | exact hnn hx | simp at hx
    cases op <;> simp only [expected] at ho
    all_goals first | exact hnn ho | exact hcc _ ho | skip
    · split at ho <;> simp at ho
    · split at ho
      · simp at ho
      · exact hnn ho
    · split at ho <;> simp at ho
    · simp at ho
  refine ⟨hA, ?_, ?_⟩
  · intro j hj
    rw [e] at hj
    unfold openAfter at hj
    split at hj
    · rename_i i hi
      rcases List.mem_cons.1 hj with rfl | hj
      · exact .inr (Nat.le_of_eq (hn _ rfl _ hi).symm)
      · exact .inl hj
    · rename_i i hi
      rcases List.mem_cons.1 hj with rfl | hj
      · exact .inr (Nat.le_of_eq (hn _ rfl _ hi).symm)
      · exact .inl hj
    · exact .inl (List.mem_of_mem_tail hj)
    · exact .inl hj
  · rw [hA.good.wf.top, h.good.wf.top]
    have hlen := he.len
    rw [← e] at hlen
    generalize (s.step fl op).2 = o at *
    unfold openAfter
    split
    · rw [hlen]; exact .inr (.inl (by simp [nodesAdded]))
    · rw [hlen]; exact .inr (.inl (by simp [nodesAdded]))
    · cases st with
      | nil => exact .inl rfl
      | cons head st =>
        refine .inr (.inr ⟨head, rfl, ?_, ?_⟩)
        · have := h.good.wf.chain.lt (p := head) (by simp)
          omega
        · intro hm
          have := h.good.wf.chain.2.1 head hm
          omega
    · exact .inl rfl

theorem Gone.mono {s s' : Sys α} {st st' : List Nat} {o : Option Nat} (h : Gone s st o)
    (hl : s.b.tree.nodes.length ≤ s'.b.tree.nodes.length)
    (hs : ∀ j ∈ st', j ∈ st ∨ s.b.tree.nodes.length ≤ j) : Gone s' st' o := by
  obtain ⟨j, rfl, h1, h2⟩ := h
  refine ⟨j, rfl, by omega, fun hm => ?_⟩
  rcases hs j hm with h | h
  · exact h2 h
  · omega

/-- One call: the invariant stays, and a checkpoint stays on its level or its level is gone. -/
theorem FramesOk.step {s : Sys α} {st : List Nat} (h : Alone fl s st) (hf : FramesOk s st)
    (op : Op α) :
    FramesOk (s.step fl op).1 (openAfter st op (s.step fl op).2) ∧
    ∀ (c : Nat) (cell : Cell), s.cells[c]? = some cell → ∃ cell',
      (s.step fl op).1.cells[c]? = some cell' ∧
      (cell'.parent = cell.parent ∨
        Gone (s.step fl op).1 (openAfter st op (s.step fl op).2) cell'.parent) := by
  obtain ⟨hA, hsub, htop⟩ := h.opened op
  have hlen : s.b.tree.nodes.length ≤ (s.step fl op).1.b.tree.nodes.length := by
    obtain ⟨_, _, he⟩ := h.good.step op
    have := he.len
    omega
  have hk := Kind.step h op
  have hle' : ∀ j ∈ st, j < s.b.tree.nodes.length := fun j hj => h.good.wf.chain.lt hj
  have hstep2 : ∀ j, j ∈ openAfter st op (s.step fl op).2 →
      j < (s.step fl op).1.b.tree.nodes.length := fun j hj => hA.good.wf.chain.lt hj
  generalize openAfter st op (s.step fl op).2 = st' at *
  generalize (s.step fl op).1 = s' at *
  have mono : ∀ {o : Option Nat}, Gone s st o → Gone s' st' o := fun h => h.mono hlen hsub
  cases hk with
  | same hp hc =>
    have hl : s'.b.tree.nodes.length = s.b.tree.nodes.length := by
      rw [← pars_length, hp, pars_length]
    refine ⟨?_, fun c cell hcell => ⟨cell, by rw [hc]; exact hcell, .inl rfl⟩⟩
    intro c cell hcell
    rw [hc] at hcell
    rw [hp, hl]
    rcases hf c cell hcell with h1 | ⟨h1, h2⟩
    · exact .inl (mono h1)
    · have h2' := fun q hq => (h2 q hq).imp id mono
      rcases htop with ht | ht | ht
      · exact .inr ⟨fun hx => by rw [ht]; exact h1 hx, h2'⟩
      · omega
      · rcases Nat.lt_or_ge cell.node s.b.tree.nodes.length with hlt | hge
        · exact .inr ⟨fun hx => by omega, h2'⟩
        · exact .inl (h1 hge ▸ ht)
  | cell hp hb hc =>
    have hl : s'.b.tree.nodes.length = s.b.tree.nodes.length := by
      rw [← pars_length, hp, pars_length]
    refine ⟨?_, fun c cell hcell => ⟨cell, ?_, .inl rfl⟩⟩
    · intro c cell hcell
      rw [hc] at hcell
      rw [hp, hl, hb]
      rcases Nat.lt_or_ge c s.cells.length with hlt | hge
      · rw [List.getElem?_append_left hlt] at hcell
        rcases hf c cell hcell with h1 | ⟨h1, h2⟩
        · exact .inl (mono h1)
        · exact .inr ⟨h1, fun q hq => (h2 q hq).imp id mono⟩
      · rw [List.getElem?_append_right hge] at hcell
        rcases Nat.eq_zero_or_pos (c - s.cells.length) with h0 | h0
        · rw [h0] at hcell; simp at hcell; subst hcell
          refine .inr ⟨fun _ => rfl, fun q hq => ?_⟩
          have := (List.getElem?_eq_some_iff.1 hq).1
          rw [pars_length] at this
          simp at this
        · rw [List.getElem?_eq_none (by simp; omega)] at hcell; simp at hcell
    · rw [hc, List.getElem?_append_left (List.getElem?_eq_some_iff.1 hcell).1]; exact hcell
  | added hp hc =>
    have hl : s'.b.tree.nodes.length = s.b.tree.nodes.length + 1 := by
      rw [← pars_length, hp]; simp [pars_length]
    refine ⟨?_, fun c cell hcell => ⟨cell, by rw [hc]; exact hcell, .inl rfl⟩⟩
    intro c cell hcell
    rw [hc] at hcell
    rw [hp, hl]
    have hown := h.own c cell hcell
    rcases hf c cell hcell with h1 | ⟨h1, h2⟩
    · exact .inl (mono h1)
    · refine .inr ⟨fun hx => by omega, fun q hq => ?_⟩
      rcases Nat.lt_or_ge cell.node s.b.tree.nodes.length with hlt | hge
      · rw [List.getElem?_append_left (by rw [pars_length]; exact hlt)] at hq
        exact (h2 q hq).imp id mono
      · have hnode : cell.node = s.b.tree.nodes.length := by omega
        rw [hnode, List.getElem?_append_right (by rw [pars_length]; exact Nat.le_refl _)] at hq
        simp [pars_length] at hq
        rw [h1 hge]; exact .inl hq.symm
  | wrapped c0 cell0 q0 hcell0 hpar0 hq0 hb hl0 hp hn hc =>
    have hl : s'.b.tree.nodes.length = s.b.tree.nodes.length + 1 := by
      rw [← pars_length, hl0, pars_length]
    have hnew : Gone s' st' (some s.b.tree.nodes.length) := by
      refine ⟨_, rfl, by omega, fun hm => ?_⟩
      -- the node is not open: the open nodes are below the parent of the checkpoint
      rw [hA.good.wf.top, h.good.wf.top] at hb
      cases st' with
      | nil => simp at hm
      | cons head st' =>
        have h1 := hA.good.wf.chain.le_head (p := head) rfl hm
        have h2 := hle' head (List.mem_of_mem_head? hb.symm)
        omega
    have hq : q0 = s.b.parent ∨ Gone s' st' q0 := by
      rcases hf c0 cell0 hcell0 with ⟨j, h1, h2, h3⟩ | ⟨_, h2⟩
      · exfalso
        rw [hpar0, h.good.wf.top] at h1
        exact h3 (List.mem_of_mem_head? h1)
      · rw [← hpar0]; exact (h2 q0 hq0).imp id mono
    refine ⟨?_, ?_⟩
    · intro c cell hcell
      rw [hc] at hcell
      by_cases hcc : c0 = c
      · subst hcc
        rw [List.getElem?_set_self (List.getElem?_eq_some_iff.1 hcell0).1] at hcell
        simp only [Option.some.injEq] at hcell
        subst hcell
        simp only
        rcases hq with hq | hq
        · refine .inr ⟨fun hx => by omega, fun q hq' => ?_⟩
          rw [hn] at hq'; simp at hq'; exact .inl hq'.symm
        · exact .inl hq
      · rw [List.getElem?_set_ne hcc] at hcell
        have hown := h.own c cell hcell
        rcases hf c cell hcell with h1 | ⟨h1, h2⟩
        · exact .inl (mono h1)
        · refine .inr ⟨fun hx => by omega, fun q hq' => ?_⟩
          rcases Nat.lt_or_ge cell.node s.b.tree.nodes.length with hlt | hge
          · rcases hp _ hlt with h3 | h3
            · rw [h3] at hq'
              exact (h2 q hq').imp id mono
            · rw [h3] at hq'; simp at hq'; subst hq'; exact .inr hnew
          · have hnode : cell.node = s.b.tree.nodes.length := by omega
            rw [hnode, hn] at hq'
            simp at hq'; subst hq'
            rw [h1 hge]; exact hq
    · intro c cell hcell
      rw [hc]
      by_cases hcc : c0 = c
      · subst hcc
        rw [List.getElem?_set_self (List.getElem?_eq_some_iff.1 hcell0).1]
        refine ⟨_, rfl, ?_⟩
        rw [hcell0] at hcell; simp at hcell; subst hcell
        rw [hpar0]; exact hq
      · exact ⟨cell, by rw [List.getElem?_set_ne hcc]; exact hcell, .inl rfl⟩

theorem FramesOk.init : FramesOk (Sys.init : Sys α) [] := by simp [FramesOk, Sys.init]

/-- The open nodes are those that the results say. -/
theorem Alone.run_open {s : Sys α} {st : List Nat} (h : Alone fl s st) (ops : List (Op α)) :
    Alone fl (s.run fl ops).1 (openIds st ops (s.run fl ops).2) := by
  induction ops generalizing s st with
  | nil => exact h
  | cons op ops ih => exact ih (h.opened op).1

theorem openIds_ge {s : Sys α} {st : List Nat} (h : Alone fl s st) (ops : List (Op α)) :
    ∀ j ∈ openIds st ops (s.run fl ops).2, j ∈ st ∨ s.b.tree.nodes.length ≤ j := by
  induction ops generalizing s st with
  | nil => exact fun j hj => .inl hj
  | cons op ops ih =>
    intro j hj
    obtain ⟨hA, hsub, _⟩ := h.opened op
    obtain ⟨_, _, he⟩ := h.good.step op
    have hl := he.len
    rcases ih hA j hj with h1 | h1
    · exact hsub j h1
    · exact .inr (by omega)

/-- A history: a checkpoint stays on its level or its level is gone, for good. -/
theorem FramesOk.run {s : Sys α} {st : List Nat} (h : Alone fl s st) (hf : FramesOk s st)
    (ops : List (Op α)) :
    FramesOk (s.run fl ops).1 (openIds st ops (s.run fl ops).2) ∧
    ∀ (c : Nat) (cell : Cell), s.cells[c]? = some cell → ∃ cell',
      (s.run fl ops).1.cells[c]? = some cell' ∧
      (cell'.parent = cell.parent ∨
        Gone (s.run fl ops).1 (openIds st ops (s.run fl ops).2) cell'.parent) := by
  induction ops generalizing s st with
  | nil => exact ⟨hf, fun c cell hc => ⟨cell, hc, .inl rfl⟩⟩
  | cons op ops ih =>
    obtain ⟨hA, _, _⟩ := h.opened op
    obtain ⟨hf1, hc1⟩ := hf.step h op
    obtain ⟨hf2, hc2⟩ := ih hA hf1
    refine ⟨hf2, fun c cell hc => ?_⟩
    obtain ⟨cell1, h1, h2⟩ := hc1 c cell hc
    obtain ⟨cell2, h3, h4⟩ := hc2 c cell1 h1
    refine ⟨cell2, h3, ?_⟩
    rcases h4 with h4 | h4
    · rcases h2 with h2 | h2
      · exact .inl (h4.trans h2)
      · refine .inr ?_
        rw [h4]
        refine h2.mono ?_ (openIds_ge hA ops)
        have := hA.len_run ops
        simp only [Tree.len] at this
        simp only [Sys.run]
        omega
    · exact .inr h4

theorem Gone.ne_parent {s : Sys α} {st : List Nat} (h : Alone fl s st) {o : Option Nat}
    (hg : Gone s st o) : o ≠ s.b.parent := by
  obtain ⟨j, rfl, _, h2⟩ := hg
  rw [h.good.wf.top]
  intro he
  exact h2 (List.mem_of_mem_head? he.symm)

theorem hmore_run {s : Sys α} {st : List Nat} (h : Alone fl s st) (ops : List (Op α)) {k c : Nat}
    (hk : s.handles[k]? = some c) : (s.run fl ops).1.handles[k]? = some c := by
  induction ops generalizing s st with
  | nil => exact hk
  | cons op ops ih =>
    obtain ⟨_, _, he⟩ := h.good.step op
    exact ih (h.opened op).1 (he.hmore k c hk)

/-- What `close_at` says, from the cell alone. -/
theorem closeAt_rejects {s : Sys α} {st : List Nat} (h : Alone fl s st) {k c : Nat} {cell : Cell}
    (hk : s.handles[k]? = some c) (hc : s.cells[c]? = some cell) {op : Op α} {d : α}
    {e : Option Span} (hu : UsesAt op k d e) :
    (cell.parent ≠ s.b.parent → s.step fl op = (s, .error .closeAtError)) ∧
    (cell.parent = s.b.parent → (s.step fl op).2 = newNode fl s.b.tree.len) := by
  constructor
  · intro hne
    cases hu <;> simp only [Sys.step, hk, Builder.closeAt, Builder.closeAtWith,
      Builder.closeAtCore, hc, ne_eq, hne, not_false_eq_true, if_true] <;> rfl
  · intro heq
    rw [(h.good.step op).1]
    have hx : expected fl s op = expectedCloseAt fl s k := by cases hu <;> rfl
    have hown := h.own c cell hc
    rw [hx, expectedCloseAt, hk]
    simp only [hc]
    rw [if_neg (by simpa using heq), if_neg (by unfold Tree.len; omega)]

/-- A checkpoint just taken belongs to the node being built. -/
theorem checkpoint_cell {s : Sys α} {st : List Nat} (h : Alone fl s st) {k : Nat}
    (hk : (s.step fl .checkpoint).2 = .ok (.handle k)) :
    ∃ c cell, (s.step fl .checkpoint).1.handles[k]? = some c ∧
      (s.step fl .checkpoint).1.cells[c]? = some cell ∧ cell.parent = s.b.parent := by
  simp only [Sys.step, Builder.mkCheckpoint, Tree.len] at hk ⊢
  rw [ptrNew_eq] at hk ⊢
  by_cases hc : s.b.tree.nodes.length < 2 ^ fl.width - 1
  · rw [if_pos hc] at hk ⊢
    simp only at hk ⊢
    cases hck : s.b.checkpoint with
    | none =>
      rw [hck] at hk
      simp only [Except.ok.injEq, Out.handle.injEq] at hk
      subst hk
      exact ⟨s.cells.length, ⟨s.b.tree.nodes.length, s.b.parent⟩, by simp, by simp, rfl⟩
    | some c =>
      rw [hck] at hk
      simp only at hk ⊢
      cases hcell : s.cells[c]? with
      | none =>
        rw [hcell] at hk
        simp only [Except.ok.injEq, Out.handle.injEq] at hk
        subst hk
        exact ⟨s.cells.length, ⟨s.b.tree.nodes.length, s.b.parent⟩, by simp, by simp, rfl⟩
      | some cell =>
        rw [hcell] at hk
        simp only at hk ⊢
        by_cases he : cell.node = s.b.tree.nodes.length ∧ cell.parent = s.b.parent
        · rw [if_pos he] at hk ⊢
          simp only [Except.ok.injEq, Out.handle.injEq] at hk
          subst hk
          exact ⟨c, cell, by simp, hcell, he.2⟩
        · rw [if_neg he] at hk ⊢
          simp only [Except.ok.injEq, Out.handle.injEq] at hk
          subst hk
          exact ⟨s.cells.length, ⟨s.b.tree.nodes.length, s.b.parent⟩, by simp, by simp, rfl⟩
  · rw [if_neg hc] at hk; simp at hk

/-- The node being built is the parent of what is added. -/
theorem building_parent (ops : List (Op α)) :
    building fl ops = (Sys.init.run fl ops).1.b.parent := by
  rw [((Alone.init (α := α) fl).run_open ops).good.wf.top]; rfl

theorem run_lengthF (ops : List (Op α)) (s : Sys α) : (s.run fl ops).2.length = ops.length := by
  induction ops generalizing s with
  | nil => rfl
  | cons op ops ih => simp only [Sys.run, List.length_cons]; rw [ih]

/-- A checkpoint at some later moment: it belongs to the node that was being built when it was taken,
or it is rejected from now on. -/
theorem checkpoint_later {pre mid : List (Op α)} {k : Nat}
    (hk : ((Sys.init.run fl pre).1.step fl .checkpoint).2 = .ok (.handle k)) :
    ∃ c cell, (Sys.init.run fl (pre ++ .checkpoint :: mid)).1.handles[k]? = some c ∧
      (Sys.init.run fl (pre ++ .checkpoint :: mid)).1.cells[c]? = some cell ∧
      (cell.parent = building fl pre ∨ Gone (Sys.init.run fl (pre ++ .checkpoint :: mid)).1
        (openIds [] (pre ++ .checkpoint :: mid)
          (Sys.init.run fl (pre ++ .checkpoint :: mid)).2) cell.parent) := by
  have h0 := (Alone.init (α := α) fl).run_open pre
  have f0 := (FramesOk.run (Alone.init (α := α) fl) .init pre).1
  obtain ⟨c, cell, h1, h2, h3⟩ := checkpoint_cell h0 hk
  have hA := (h0.opened .checkpoint).1
  have f1 := (f0.step h0 .checkpoint).1
  obtain ⟨cell', h4, h5⟩ := (f1.run hA mid).2 c cell h2
  have e1 : (Sys.init.run fl (pre ++ .checkpoint :: mid)).1 =
      ((((Sys.init : Sys α).run fl pre).1.step fl .checkpoint).1.run fl mid).1 := by
    rw [Sys.run_append]; rfl
  have e2 : openIds [] (pre ++ .checkpoint :: mid) (Sys.init.run fl (pre ++ .checkpoint :: mid)).2 =
      openIds (openAfter (openIds [] pre (Sys.init.run fl pre).2) (.checkpoint : Op α)
        ((Sys.init.run fl pre).1.step fl .checkpoint).2) mid
        ((((Sys.init : Sys α).run fl pre).1.step fl .checkpoint).1.run fl mid).2 := by
    rw [Sys.run_append]
    simp only
    rw [openIds_append _ _ _ _ _ (run_lengthF _ _)]
    rfl
  rw [e1, e2]
  refine ⟨c, cell', hmore_run hA mid h1, h4, ?_⟩
  rw [building_parent, ← h3]
  exact h5

end Syntree
