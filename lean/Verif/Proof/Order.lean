import Verif.Proof.Made
import Verif.Proof.Cover

/-! The ids of nodes and their place in the document. -/

namespace Syntree

variable {α : Type} {fl : Flavor}

open Forest

/-- A wrapper is younger than everything below it, every other node is older. -/
def Aged (W : Nat → Bool) (x : Lab α) (k : Forest (Lab α)) : Prop :=
  (W x.id = true → ∀ y ∈ k.ids, y < x.id) ∧ (W x.id = false → ∀ y ∈ k.ids, x.id < y)

/-- The open nodes: none of them is a wrapper, and each is older than what is inside it. -/
def PathAged (W : Nat → Bool) : List Nat → Stack α → Prop
  | _, [] => True
  | ins, (x, left) :: st => W x.id = false ∧ (∀ y ∈ ins, x.id < y) ∧ Every (Aged W) left ∧
      PathAged W (left.ids ++ x.id :: ins) st

structure OrderInv (W : Nat → Bool) (n : Nest α) : Prop where
  bound : ∀ i ∈ pathIds n.stack ++ n.cur.ids, i < n.count
  sorted : ((pathIds n.stack ++ n.cur.ids).filter fun i => ! W i).Pairwise (· < ·)
  cur : Every (Aged W) n.cur
  path : PathAged W n.cur.ids n.stack

theorem PathAged.mono {W : Nat → Bool} {st : Stack α} : ∀ {a b : List Nat}, PathAged W a st →
    (∀ y ∈ b, y ∈ a ∨ ∀ i ∈ pathIds st, i < y) → PathAged W b st := by
  induction st with
  | nil => intro a b _ _; trivial
  | cons p st ih =>
    obtain ⟨x, left⟩ := p
    intro a b h hb
    obtain ⟨h1, h2, h3, h4⟩ := h
    refine ⟨h1, ?_, h3, ih h4 ?_⟩
    · intro y hy
      rcases hb y hy with h | h
      · exact h2 y h
      · exact h _ (by simp [pathIds])
    · intro y hy
      simp only [List.mem_append, List.mem_cons] at hy ⊢
      rcases hy with hy | hy | hy
      · exact Or.inl (Or.inl hy)
      · exact Or.inl (Or.inr (Or.inl hy))
      · rcases hb y hy with h | h
        · exact Or.inl (Or.inr (Or.inr h))
        · exact Or.inr (fun i hi => h i (by simp [pathIds, hi]))

/-- Only ids and what is on the left matter. -/
theorem PathAged.congr {W : Nat → Bool} : ∀ {st st' : Stack α} {ins : List Nat},
    st.map (fun p => (p.1.id, p.2)) = st'.map (fun p => (p.1.id, p.2)) → PathAged W ins st →
    PathAged W ins st' := by
  intro st
  induction st with
  | nil => intro st' ins e _; cases st' <;> simp_all [PathAged]
  | cons p st ih =>
    intro st' ins e h
    cases st' with
    | nil => simp at e
    | cons q st' =>
      obtain ⟨x, left⟩ := p
      obtain ⟨x', left'⟩ := q
      simp only [List.map_cons, List.cons.injEq, Prod.mk.injEq] at e
      obtain ⟨⟨e1, e2⟩, e3⟩ := e
      subst e2
      obtain ⟨h1, h2, h3, h4⟩ := h
      refine ⟨e1 ▸ h1, e1 ▸ h2, h3, ?_⟩
      rw [← e1]
      exact ih e3 h4

theorem endParent_shape (c : Nat) (st : Stack α) :
    (Nest.endParent c st).map (fun p => (p.1.id, p.2)) = st.map (fun p => (p.1.id, p.2)) := by
  cases st <;> rfl

theorem growParent_shape (sp : Span) (st : Stack α) :
    (Nest.growParent sp st).map (fun p => (p.1.id, p.2)) = st.map (fun p => (p.1.id, p.2)) := by
  cases st <;> rfl

theorem pathIds_congr : ∀ {st st' : Stack α},
    st.map (fun p => (p.1.id, p.2)) = st'.map (fun p => (p.1.id, p.2)) → pathIds st = pathIds st' := by
  intro st
  induction st with
  | nil => intro st' e; cases st' <;> simp_all
  | cons p st ih =>
    intro st' e
    cases st' with
    | nil => simp at e
    | cons q st' =>
      obtain ⟨x, left⟩ := p
      obtain ⟨x', left'⟩ := q
      simp only [List.map_cons, List.cons.injEq, Prod.mk.injEq] at e
      obtain ⟨⟨e1, e2⟩, e3⟩ := e
      simp only [pathIds, e1, e2, ih e3]

theorem sorted_snoc {l : List Nat} {W : Nat → Bool} {c : Nat} (h : (l.filter fun i => ! W i).Pairwise (· < ·))
    (hb : ∀ i ∈ l, i < c) : ((l ++ [c]).filter fun i => ! W i).Pairwise (· < ·) := by
  rw [List.filter_append, List.pairwise_append]
  refine ⟨h, ?_, ?_⟩
  · cases hW : W c <;> simp [hW]
  · intro a ha b hb'
    have : b = c := by
      have := (List.mem_filter.1 hb').1
      simpa using this
    subst this
    exact hb a (List.mem_filter.1 ha).1

theorem OrderInv.leaf {W : Nat → Bool} {n : Nest α} (h : OrderInv W n) {n' : Nest α} {d : α} {sp : Span}
    (hcur : n'.cur = n.cur ++ Forest.leaf ⟨n.count, d, sp⟩) (hcount : n'.count = n.count + 1)
    (hst : n'.stack.map (fun p => (p.1.id, p.2)) = n.stack.map (fun p => (p.1.id, p.2))) : OrderInv W n' := by
  have e : pathIds n'.stack ++ n'.cur.ids = (pathIds n.stack ++ n.cur.ids) ++ [n.count] := by
    rw [pathIds_congr hst, hcur, ids_append, List.append_assoc]; rfl
  refine ⟨?_, ?_, ?_, ?_⟩
  · intro i hi
    rw [e, List.mem_append] at hi
    rw [hcount]
    rcases hi with hi | hi
    · exact Nat.lt_succ_of_lt (h.bound i hi)
    · simp at hi; omega
  · rw [e]; exact sorted_snoc h.sorted h.bound
  · rw [hcur, Every.append]
    exact ⟨h.cur, ⟨⟨fun _ y hy => by simp [Forest.ids, Forest.preorder] at hy,
      fun _ y hy => by simp [Forest.ids, Forest.preorder] at hy⟩, trivial, trivial⟩⟩
  · refine PathAged.congr hst.symm (h.path.mono ?_)
    intro y hy
    rw [hcur, ids_append, List.mem_append] at hy
    rcases hy with hy | hy
    · exact Or.inl hy
    · have : y = n.count := by simpa [Forest.ids, Forest.preorder] using hy
      subst this
      exact Or.inr (fun i hi => h.bound i (List.mem_append_left _ hi))

theorem OrderInv.did {W : Nat → Bool} {n n' : Nest α} {op : Op α} {o : Except Err Out}
    (h : OrderInv W n) (hd : Did fl n op n' o)
    (hW : (idOf o).isSome = true → W n.count = op.isCloseAt) : OrderInv W n' := by
  cases hd with
  | fail _ _ => exact h
  | lost d len c he ha hf => exact ⟨h.bound, h.sorted, h.cur, h.path⟩
  | noHandle _ => exact h
  | setCursor _ => exact ⟨h.bound, h.sorted, h.cur, h.path⟩
  | mark _ => exact ⟨h.bound, h.sorted, h.cur, h.path⟩
  | opened _ d sp hop _ =>
    have hWc : W n.count = false := by
      rw [hW rfl]
      rcases hop with ⟨rfl, _⟩ | rfl <;> rfl
    have e : pathIds (n.addOpen d sp).stack ++ (n.addOpen d sp).cur.ids =
        (pathIds n.stack ++ n.cur.ids) ++ [n.count] := by
      show (pathIds (Nest.endParent sp.stop n.stack) ++ (n.cur.ids ++ [n.count])) ++ [] = _
      rw [pathIds_endParent, List.append_nil, List.append_assoc]
    refine ⟨?_, ?_, trivial, hWc, ?_, h.cur, ?_⟩
    · intro i hi
      rw [e, List.mem_append] at hi
      show i < n.count + 1
      rcases hi with hi | hi
      · exact Nat.lt_succ_of_lt (h.bound i hi)
      · simp at hi; omega
    · rw [e]; exact sorted_snoc h.sorted h.bound
    · intro y hy; simp [Nest.addOpen, Forest.ids, Forest.preorder] at hy
    · refine PathAged.congr (endParent_shape _ _).symm (h.path.mono ?_)
      intro y hy
      simp only [Nest.addOpen, List.mem_append, List.mem_cons] at hy
      rcases hy with hy | hy | hy
      · exact Or.inl hy
      · subst hy
        exact Or.inr (fun i hi => h.bound i (List.mem_append_left _ hi))
      · simp [Forest.ids, Forest.preorder] at hy
  | emptyTok _ d hop _ => exact h.leaf rfl rfl (endParent_shape _ _)
  | tok d len c _ _ _ => exact h.leaf rfl rfl (endParent_shape _ _)
  | tokWith d sp _ =>
    exact h.leaf rfl rfl ((growParent_shape _ _).trans (endParent_shape _ _))
  | closed x left st hs =>
    have hp := h.path
    rw [hs] at hp
    obtain ⟨p1, p2, p3, p4⟩ := hp
    have e : pathIds (Nest.growParent x.span st) ++ (left ++ Forest.single x n.cur).ids =
        pathIds n.stack ++ n.cur.ids := by
      rw [hs, pathIds_growParent]; simp [pathIds]
    refine ⟨?_, ?_, ?_, ?_⟩
    · intro i hi
      have hi : i ∈ pathIds (Nest.growParent x.span st) ++ (left ++ Forest.single x n.cur).ids := hi
      rw [e] at hi
      exact h.bound i hi
    · show ((pathIds (Nest.growParent x.span st) ++ (left ++ Forest.single x n.cur).ids).filter _).Pairwise _
      rw [e]; exact h.sorted
    · show Every _ (left ++ Forest.single x n.cur)
      rw [Every.append]
      exact ⟨p3, ⟨⟨fun e => by rw [p1] at e; simp at e, fun _ => p2⟩, h.cur, trivial⟩⟩
    · refine PathAged.congr (growParent_shape _ _).symm (p4.mono ?_)
      intro y hy
      left
      have : y ∈ (left ++ Forest.single x n.cur).ids := hy
      rw [ids_append] at this
      simpa [Forest.ids, Forest.preorder] using this
  | wrapped _ k d explicit m hop _ _ _ _ =>
    have hWc : W n.count = true := by
      rw [hW rfl]
      rcases hop with ⟨rfl, _⟩ | ⟨sp, rfl, _⟩ <;> rfl
    unfold Nest.wrap
    by_cases hnil : (n.cur.drop m.pos).isNil = true
    · rw [if_pos hnil]
      exact h.leaf rfl rfl (endParent_shape _ _)
    · rw [if_neg hnil]
      have hsplit := take_append_drop m.pos n.cur
      have hids : n.cur.ids = (n.cur.take m.pos).ids ++ (n.cur.drop m.pos).ids := by
        rw [← ids_append, hsplit]
      have hc := h.cur
      rw [← hsplit, Every.append] at hc
      have hmem : ∀ y ∈ (n.cur.drop m.pos).ids, y < n.count := fun y hy =>
        h.bound y (by rw [hids]; simp [hy])
      refine ⟨?_, ?_, ?_, ?_⟩
      · intro i hi
        simp only [ids_append, List.mem_append] at hi
        show i < n.count + 1
        rcases hi with hi | hi | hi
        · exact Nat.lt_succ_of_lt (h.bound i (by simp [hi]))
        · exact Nat.lt_succ_of_lt (h.bound i (by rw [hids]; simp [hi]))
        · have hi : i = n.count ∨ i ∈ (n.cur.drop m.pos).ids := by
            simpa [Forest.ids, Forest.preorder] using hi
          rcases hi with rfl | hi
          · omega
          · exact Nat.lt_succ_of_lt (hmem i hi)
      · have hs := h.sorted
        rw [hids, ← List.append_assoc, List.filter_append] at hs
        simp only [ids_append, Forest.single, ids_cons, ids_nil, List.append_nil]
        rw [← List.append_assoc, List.filter_append, List.filter_cons]
        simpa [hWc] using hs
      · simp only
        rw [Every.append]
        exact ⟨hc.1, ⟨⟨fun _ => hmem, fun e => by rw [hWc] at e; simp at e⟩, hc.2, trivial⟩⟩
      · refine h.path.mono ?_
        intro y hy
        simp only [ids_append, Forest.single, ids_cons, ids_nil, List.append_nil, List.mem_append,
          List.mem_cons] at hy
        rcases hy with hy | hy | hy
        · exact Or.inl (by rw [hids]; simp [hy])
        · subst hy
          exact Or.inr (fun i hi => h.bound i (List.mem_append_left _ hi))
        · exact Or.inl (by rw [hids]; simp [hy])

theorem OrderInv.of_run {ops : List (Op α)} {n : Nest α} {os : List (Except Err Out)}
    (h : Nest.init.run fl ops = some (n, os)) : ∀ W : Nat → Bool,
    (∀ i op, (made ops os)[i]? = some op → W i = op.isCloseAt) → OrderInv W n := by
  refine Nest.run_induct (P := fun ops n os => ∀ W : Nat → Bool,
    (∀ i op, (made ops os)[i]? = some op → W i = op.isCloseAt) → OrderInv W n) ?_ ?_ ops n os h
  · intro W _
    exact ⟨by simp [Nest.init, pathIds, Forest.ids, Forest.preorder],
      by simp [Nest.init, pathIds, Forest.ids, Forest.preorder], trivial, trivial⟩
  · intro ops n os op n' o hrun hi hst W hW
    rw [made_snoc (Nest.run_length hrun)] at hW
    have hlen := (LogInv.of_run hrun).len
    refine (hi W ?_).did (Nest.step_did hst) ?_
    · intro i op' ho
      refine hW i op' ?_
      split
      · rw [List.getElem?_append_left (List.getElem?_eq_some_iff.1 ho).1]; exact ho
      · simpa using ho
    · intro hs
      refine hW n.count op ?_
      simp only [hs, if_true]
      rw [← hlen]; simp

end Syntree
