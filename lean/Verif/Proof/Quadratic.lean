import Verif.Model.Cost
import Verif.Proof.Clone
import Verif.Proof.Pointer
import Verif.Proof.Outcome
import Verif.Proof.Full

/-!
# A history for which building is quadratic

`m` tokens side by side, each with a checkpoint of its own, and then all the checkpoints used, the
first one first.
-/

namespace Syntree

variable {α : Type} {fl : Flavor}

/-- The two links of a node that matter here. -/
def sib (nodes : List (Links α)) (j : Nat) : Option (Option Nat × Option Nat) :=
  nodes[j]?.map fun l => (l.next, l.prev)

theorem sib_set_parent {nodes : List (Links α)} {i : Nat} {l : Links α} (h : nodes[i]? = some l)
    (p : Option Nat) (j : Nat) : sib (nodes.set i { l with parent := p }) j = sib nodes j := by
  unfold sib
  rw [List.getElem?_set]
  split
  · next e =>
    subst e
    rw [if_pos (List.getElem?_eq_some_iff.1 h).1, h]
    rfl
  · rfl

theorem sib_restructure (p : Nat) : ∀ (fuel : Nat) (nodes : List (Links α)) (cur j : Nat),
    sib (restructure p fuel nodes cur).1 j = sib nodes j
  | 0, _, _, _ => rfl
  | fuel + 1, nodes, cur, j => by
    unfold restructure
    cases h : nodes[cur]? with
    | none => rfl
    | some l =>
      obtain ⟨d, sp, par, prev, next, first, last⟩ := l
      have k := sib_set_parent h (some p) j
      cases next with
      | none => exact k
      | some n => exact (sib_restructure p fuel _ n j).trans k

/-- The siblings from `k` to `m - 1`, in order. -/
def SwChain (nodes : List (Links α)) (k m : Nat) : Prop :=
  ∀ (j : Nat), k ≤ j → j < m → sib nodes j =
    some (if j + 1 < m then some (j + 1) else none, if j = 0 then none else some (j - 1))

theorem SwChain.get {nodes : List (Links α)} {k m j : Nat} (h : SwChain nodes k m) (h1 : k ≤ j)
    (h2 : j < m) : ∃ l, nodes[j]? = some l ∧ l.next = (if j + 1 < m then some (j + 1) else none) ∧
      l.prev = if j = 0 then none else some (j - 1) := by
  have := h j h1 h2
  unfold sib at this
  cases e : nodes[j]? with
  | none => rw [e] at this; cases this
  | some l =>
    rw [e] at this
    simp only [Option.map_some, Option.some.injEq, Prod.mk.injEq] at this
    exact ⟨l, rfl, this⟩

/-- The loop goes to the end of the chain. -/
theorem SwChain.restructure (p : Nat) : ∀ (fuel : Nat) {nodes : List (Links α)} {k m cur : Nat},
    SwChain nodes k m → k ≤ cur → cur < m → m - cur ≤ fuel →
    (∃ r, (restructure p fuel nodes cur).2 = .ok r) ∧
      restructureSteps p fuel nodes cur = m - cur
  | 0, _, _, _, _, _, _, _, _ => by omega
  | fuel + 1, nodes, k, m, cur, h, h1, h2, h3 => by
    obtain ⟨l, e1, e2, _⟩ := h.get h1 h2
    rw [Syntree.restructure, restructureSteps]
    rw [e1]
    obtain ⟨d, sp, par, prev, next, first, last⟩ := l
    dsimp only at e2 ⊢
    subst e2
    by_cases hm : cur + 1 < m
    · rw [if_pos hm] at e1 ⊢
      dsimp only
      have hc : SwChain (nodes.set cur (Links.mk d sp (some p) prev (some (cur + 1)) first last)) k m := fun j a b => by
        rw [sib_set_parent e1 (some p) j]; exact h j a b
      obtain ⟨a, b⟩ := SwChain.restructure p fuel hc (Nat.le_succ_of_le h1) hm (by omega)
      refine ⟨a, ?_⟩
      rw [b]; omega
    · rw [if_neg hm]
      exact ⟨⟨_, rfl⟩, by dsimp only; omega⟩

/-- While the tokens are made: `i` of them so far. -/
structure SwLaid (s : Sys α) (i : Nat) : Prop where
  len : s.b.tree.nodes.length = i
  chain : SwChain s.b.tree.nodes 0 i
  cells : s.cells = (List.range i).map (⟨·, none⟩)
  handles : s.handles = List.range i
  parent : s.b.parent = none
  cached : s.b.checkpoint = if i = 0 then none else some (i - 1)
  sibling : s.b.sibling = if i = 0 then none else some (i - 1)

theorem SwLaid.init : SwLaid (Sys.init : Sys α) 0 :=
  ⟨rfl, fun _ _ h => absurd h (Nat.not_lt_zero _), rfl, rfl, rfl, rfl, rfl⟩

theorem SwChain.push {nodes : List (Links α)} {i : Nat} (h : SwChain nodes 0 i)
    (hl : nodes.length = i) {l : Links α} (h1 : l.next = none)
    (h2 : l.prev = if i = 0 then none else some (i - 1)) (t : Tree α)
    (ht : t.nodes = nodes ++ [l]) :
    SwChain (t.modifyOpt (if i = 0 then none else some (i - 1))
      (fun l => { l with next := some i })).nodes 0 (i + 1) := by
  intro j _ hj
  by_cases hi : i = 0
  · subst hi
    have hn : nodes = [] := List.eq_nil_of_length_eq_zero hl
    have hj : j = 0 := by omega
    subst hn hj
    simp [sib, Tree.modifyOpt, ht, h1, h2]
  · rw [if_neg hi]
    simp only [sib, Tree.modifyOpt, Tree.modifyNode, ht, List.getElem?_modify]
    by_cases hji : j = i
    · subst hji
      rw [List.getElem?_append_right (by omega), hl]
      simp [h1, h2, hi, show ¬ j - 1 = j by omega]
    · rw [List.getElem?_append_left (by omega)]
      obtain ⟨l', e1, e2, e3⟩ := h.get (Nat.zero_le j) (by omega)
      rw [e1]
      by_cases hj1 : i - 1 = j
      · subst hj1
        simp [e3, show i - 1 + 1 = i by omega]
      · simp [hj1, e2, e3, show j + 1 < i by omega, show j < i by omega]

theorem sw_lenIsEmpty (ik : IndexKind) : ik.lenIsEmpty 0 = true := by
  cases ik <;> rfl

theorem SwLaid.more {s : Sys α} {i : Nat} (h : SwLaid s i) (d : α) (hw : i < 2 ^ fl.width - 1) :
    ∃ s' o o', s.run fl [.checkpoint, .tokenEmpty d] = (s', [.ok o, .ok o']) ∧
      SwLaid s' (i + 1) := by
  obtain ⟨⟨t, cp, par, sb, cur⟩, cells, handles⟩ := s
  obtain ⟨h1, h2, h3, h4, h5, h6, h7⟩ := h
  dsimp only at h1 h2 h3 h4 h5 h6 h7
  subst h3 h4 h5 h6 h7
  have hp : ptrNew fl.width i = some i := by rw [ptrNew_eq, if_pos hw]
  have hcp : (Builder.mk t (if i = 0 then none else some (i - 1)) none
      (if i = 0 then none else some (i - 1)) cur).mkCheckpoint fl ((List.range i).map (⟨·, none⟩)) =
      ((List.range i).map (⟨·, none⟩) ++ [⟨i, none⟩],
        ⟨t, some i, none, if i = 0 then none else some (i - 1), cur⟩, .ok i) := by
    unfold Builder.mkCheckpoint
    simp only [Tree.len, h1, hp, List.length_map, List.length_range]
    by_cases hi : i = 0
    · subst hi; simp
    · have : ((List.range i).map (fun x => (⟨x, none⟩ : Cell)))[i - 1]? = some ⟨i - 1, none⟩ := by
        rw [List.getElem?_map, List.getElem?_range (by omega)]; rfl
      rw [if_neg hi]
      simp only [this]
      rw [if_neg (by omega)]
  have hc := h2.push h1 (l := ⟨d, Span.new cur cur, none,
      if i = 0 then none else some (i - 1), none, none, none⟩) rfl rfl
      ((t.push ⟨d, Span.new cur cur, none,
      if i = 0 then none else some (i - 1), none, none, none⟩).addRoot i) rfl
  have htk : (Builder.mk t (some i) none (if i = 0 then none else some (i - 1)) cur).tokenEmpty fl d =
      (⟨((t.push ⟨d, Span.new cur cur, none,
        if i = 0 then none else some (i - 1), none, none, none⟩).addRoot i).modifyOpt
          (if i = 0 then none else some (i - 1)) (fun l => { l with next := some i }),
        some i, none, some i, cur⟩, .ok i) := by
    unfold Builder.tokenEmpty Builder.token Builder.insert
    simp only [sw_lenIsEmpty, if_true, Tree.len, h1, hp]
  refine ⟨⟨⟨((t.push ⟨d, Span.new cur cur, none,
        if i = 0 then none else some (i - 1), none, none, none⟩).addRoot i).modifyOpt
          (if i = 0 then none else some (i - 1)) (fun l => { l with next := some i }),
        some i, none, some i, cur⟩, (List.range i).map (⟨·, none⟩) ++ [⟨i, none⟩],
        List.range i ++ [i]⟩, .handle (List.range i).length, .id i, ?_, ?_⟩
  · simp only [Sys.run, Sys.step, hcp, htk, Sys.lift]
    rfl
  · refine ⟨?_, hc, ?_, ?_, rfl, ?_, ?_⟩
    · simp [modifyOpt_length, Tree.push, Tree.addRoot, h1]
    · simp [List.range_succ]
    · simp [List.range_succ]
    · simp
    · simp

/-- While the checkpoints are used: `k` of the `m` so far. -/
structure SwUsed (s : Sys α) (m k : Nat) : Prop where
  len : s.b.tree.nodes.length = m + k
  chain : SwChain s.b.tree.nodes k m
  cells : ∀ (j : Nat), k ≤ j → j < m → s.cells[j]? = some ⟨j, none⟩
  handles : s.handles = List.range m
  parent : s.b.parent = none

theorem SwLaid.used {s : Sys α} {m : Nat} (h : SwLaid s m) : SwUsed s m 0 where
  len := h.len
  chain := h.chain
  cells := fun j _ hj => by rw [h.cells, List.getElem?_map, List.getElem?_range hj]; rfl
  handles := h.handles
  parent := h.parent

theorem sib_modify_keep (nodes : List (Links α)) (i : Nat) (f : Links α → Links α)
    (hf : ∀ l, (f l).next = l.next ∧ (f l).prev = l.prev) (j : Nat) :
    sib (nodes.modify i f) j = sib nodes j := by
  unfold sib
  rw [List.getElem?_modify]
  cases nodes[j]? with
  | none => rfl
  | some l => by_cases h : i = j <;> simp [h, hf]

theorem sib_relink (t : Tree α) (id newId : Nat) (parent prev : Option Nat) (new : Links α) (j : Nat)
    (hj : prev ≠ some j) (hl : j < t.nodes.length) :
    sib (t.relink id newId parent prev new).nodes j = sib t.nodes j := by
  have h1 : ∀ (t : Tree α) (f : Links α → Links α),
      (∀ l, (f l).next = l.next ∧ (f l).prev = l.prev) →
      sib (t.modifyOpt parent f).nodes j = sib t.nodes j := by
    intro t f hf
    cases parent with
    | none => rfl
    | some p => exact sib_modify_keep _ _ _ hf _
  have h2 : ∀ (t : Tree α) (f : Links α → Links α),
      sib (t.modifyOpt prev f).nodes j = sib t.nodes j := by
    intro t f
    cases prev with
    | none => rfl
    | some p =>
      unfold sib
      simp only [Tree.modifyOpt, Tree.modifyNode]
      rw [List.getElem?_modify]
      have hp : p ≠ j := fun e => hj (by rw [e])
      simp [hp]
  have h3 : ∀ (l : List (Links α)), l.length = t.nodes.length →
      sib (l ++ [new]) j = sib l j := by
    intro l e
    unfold sib
    rw [List.getElem?_append_left (by omega)]
  unfold Tree.relink
  simp only [Tree.push]
  rw [h3 _ (by simp [modifyOpt_length]), h2]
  exact h1 _ _ (fun _ => ⟨rfl, rfl⟩)

theorem relink_length (t : Tree α) (id newId : Nat) (parent prev : Option Nat) (new : Links α) :
    (t.relink id newId parent prev new).nodes.length = t.nodes.length + 1 := by
  simp [Tree.relink, Tree.push, modifyOpt_length]

theorem SwUsed.more {s : Sys α} {m k : Nat} (h : SwUsed s m k) (d : α) (hk : k < m)
    (hw : m + k < 2 ^ fl.width - 1) :
    ∃ s' o, s.step fl (.closeAt k d) = (s', .ok o) ∧ SwUsed s' m (k + 1) ∧
      s.steps fl (.closeAt k d) = m - 1 - k := by
  obtain ⟨⟨t, cp, par, sb, cur⟩, cells, handles⟩ := s
  obtain ⟨h1, h2, h3, h4, h5⟩ := h
  dsimp only at h1 h2 h3 h4 h5
  subst h4 h5
  have hp : ptrNew fl.width (m + k) = some (m + k) := by rw [ptrNew_eq, if_pos hw]
  have hh : (List.range m)[k]? = some k := List.getElem?_range hk
  obtain ⟨l, e1, e2, e3⟩ := h2.get (Nat.le_refl k) hk
  obtain ⟨dt, sp, par, prev, next, first, last⟩ := l
  dsimp only at e2 e3
  -- the first node
  have hs : ∀ (j : Nat), k < j → sib (t.nodes.set k
      ⟨dt, sp, some (m + k), none, next, first, last⟩) j = sib t.nodes j := by
    intro j hj
    unfold sib
    rw [List.getElem?_set_ne (by omega)]
  have hc : SwChain (t.nodes.set k ⟨dt, sp, some (m + k), none, next, first, last⟩) (k + 1) m :=
    fun j a b => by rw [hs j (by omega)]; exact h2 j (by omega) b
  have hr : ∃ nodes r, reparent (m + k) k ⟨dt, sp, par, prev, next, first, last⟩ t.nodes =
      (nodes, .ok r) ∧ nodes.length = m + k ∧
      (∀ (j : Nat), k < j → sib nodes j = sib t.nodes j) := by
    have hl := reparent_len (m + k) k ⟨dt, sp, par, prev, next, first, last⟩ t.nodes
    unfold reparent at hl ⊢
    dsimp only at hl ⊢
    by_cases hm : k + 1 < m
    · rw [if_pos hm] at e2
      subst e2
      dsimp only at hl ⊢
      obtain ⟨⟨r, a⟩, b⟩ := hc.restructure (m + k) ((t.nodes.set k
        ⟨dt, sp, some (m + k), none, some (k + 1), first, last⟩).length + 1)
        (Nat.le_refl _) hm (by rw [List.length_set]; omega)
      have c := sib_restructure (m + k) ((t.nodes.set k
        ⟨dt, sp, some (m + k), none, some (k + 1), first, last⟩).length + 1) (t.nodes.set k
        ⟨dt, sp, some (m + k), none, some (k + 1), first, last⟩) (k + 1)
      generalize restructure (m + k) ((t.nodes.set k
        ⟨dt, sp, some (m + k), none, some (k + 1), first, last⟩).length + 1) (t.nodes.set k
        ⟨dt, sp, some (m + k), none, some (k + 1), first, last⟩) (k + 1) = q at a c hl ⊢
      obtain ⟨q1, q2⟩ := q
      dsimp only at a c
      subst a
      exact ⟨_, _, rfl, by rw [← h1]; exact hl, fun j hj => (c j).trans (hs j hj)⟩
    · rw [if_neg hm] at e2
      subst e2
      exact ⟨_, _, rfl, by rw [List.length_set]; exact h1, hs⟩
  obtain ⟨nodes, ⟨last', span⟩, r1, r2, r3⟩ := hr
  have hst : (Sys.mk ⟨t, cp, none, sb, cur⟩ cells (List.range m)).step fl (.closeAt k d) =
      (⟨⟨({ t with nodes := nodes } : Tree α).relink k (m + k) par prev
          { data := d, span := span, prev := prev, parent := par, next := none, first := some k,
            last := some last' }, cp, none, some (m + k), cur⟩, cells.set k ⟨m + k, par⟩,
        List.range m⟩, .ok (.id (m + k))) := by
    simp only [Sys.step, hh, Builder.closeAt, Builder.closeAtCore, h3 k (Nat.le_refl k) hk, Tree.len,
      h1, hp, e1, r1]
    simp
    rfl
  refine ⟨_, _, hst, ⟨?_, ?_, ?_, rfl, rfl⟩, ?_⟩
  · rw [relink_length]; dsimp only; omega
  · intro j a b
    rw [sib_relink _ _ _ _ _ _ j, r3 j (by omega)]
    · exact h2 j (by omega) b
    · rw [e3]; split
      · simp
      · simp; omega
    · dsimp only; omega
  · intro j a b
    dsimp only
    rw [List.getElem?_set_ne (by omega)]
    exact h3 j (by omega) b
  · simp only [Sys.steps, hh, Builder.closeAtSteps, h3 k (Nat.le_refl k) hk, Tree.len, h1, hp, e1]
    simp only [ne_eq, not_true_eq_false, if_false]
    by_cases hm : k + 1 < m
    · rw [if_pos hm] at e2
      subst e2
      dsimp only
      rw [(hc.restructure (m + k) _ (Nat.le_refl _) hm (by rw [List.length_set]; omega)).2]
      omega
    · rw [if_neg hm] at e2
      subst e2
      dsimp only
      omega

theorem Sys.runSteps_append (s : Sys α) (ops ops' : List (Op α)) :
    s.runSteps fl (ops ++ ops') = s.runSteps fl ops + (s.run fl ops).1.runSteps fl ops' := by
  induction ops generalizing s with
  | nil => simp [Sys.runSteps, Sys.run]
  | cons op ops ih =>
    have : (s.run fl (op :: ops)).1 = ((s.step fl op).1.run fl ops).1 := rfl
    rw [List.cons_append, Sys.runSteps, Sys.runSteps, ih, this, Nat.add_assoc]

theorem SwLaid.all (d : α) : ∀ (n : Nat) {s : Sys α} {i : Nat}, SwLaid s i → i + n ≤ 2 ^ fl.width - 1 →
    SwLaid (s.run fl (List.replicate n [Op.checkpoint, .tokenEmpty d]).flatten).1 (i + n) ∧
      (∀ r ∈ (s.run fl (List.replicate n [Op.checkpoint, .tokenEmpty d]).flatten).2,
        r.isOk = true) ∧
      s.runSteps fl (List.replicate n [Op.checkpoint, .tokenEmpty d]).flatten = 0
  | 0, _, _, h, _ => ⟨h, fun _ h => absurd h List.not_mem_nil, rfl⟩
  | n + 1, s, i, h, hw => by
    obtain ⟨s', o, o', e, h'⟩ := h.more d (fl := fl) (by omega)
    obtain ⟨a, b, c⟩ := SwLaid.all d n h' (by omega)
    have hf : (List.replicate (n + 1) [Op.checkpoint, .tokenEmpty d]).flatten =
        [Op.checkpoint, .tokenEmpty d] ++ (List.replicate n [Op.checkpoint, .tokenEmpty d]).flatten :=
      rfl
    rw [hf, Sys.run_append, Sys.runSteps_append, e]
    refine ⟨?_, ?_, ?_⟩
    · rw [show i + (n + 1) = i + 1 + n by omega]; exact a
    · intro r hr
      simp only [List.cons_append, List.nil_append, List.mem_cons] at hr
      rcases hr with rfl | rfl | hr
      · rfl
      · rfl
      · exact b r hr
    · rw [c]; rfl

theorem SwUsed.all (d : α) {m : Nat} (hw : 2 * m < 2 ^ fl.width) : ∀ (n k : Nat) {s : Sys α},
    SwUsed s m k → k + n = m →
    SwUsed (s.run fl ((List.range' k n).map (Op.closeAt · d))).1 m m ∧
      (∀ r ∈ (s.run fl ((List.range' k n).map (Op.closeAt · d))).2, r.isOk = true) ∧
      2 * s.runSteps fl ((List.range' k n).map (Op.closeAt · d)) = n * (n - 1)
  | 0, k, s, h, e => by
    have : k = m := e
    subst this
    exact ⟨h, fun _ h => absurd h List.not_mem_nil, rfl⟩
  | n + 1, k, s, h, e => by
    obtain ⟨s', o, e1, h', e2⟩ := h.more d (fl := fl) (by omega) (by omega)
    obtain ⟨a, b, c⟩ := SwUsed.all d hw n (k + 1) h' (by omega)
    have hf : (List.range' k (n + 1)).map (Op.closeAt · d) =
        .closeAt k d :: (List.range' (k + 1) n).map (Op.closeAt · d) := rfl
    rw [hf]
    simp only [Sys.run, Sys.runSteps, e1]
    refine ⟨a, ?_, ?_⟩
    · intro r hr
      simp only [List.mem_cons] at hr
      rcases hr with rfl | hr
      · rfl
      · exact b r hr
    · rw [e2, Nat.mul_add, c, show m - 1 - k = n by omega]
      cases n with
      | zero => rfl
      | succ n => simp only [Nat.add_sub_cancel]; rw [Nat.mul_comm (n + 1) n, ← Nat.add_mul]; congr 1; omega

end Syntree
