import Verif.Proof.EditTree
import Verif.Proof.Ckpt

/-!
Completed nodes keep their children: what a level of a `Nest` contains is carried along by every
later call.
-/

namespace Syntree

open Forest

variable {α : Type} {fl : Flavor}

/-- The element `x` occurs somewhere in the nested list, with the children `K`. -/
def Forest.Has {β : Type} : Forest β → β → Forest β → Prop
  | .nil, _, _ => False
  | .cons y k r, x, K => (y = x ∧ k = K) ∨ Forest.Has k x K ∨ Forest.Has r x K

theorem Forest.has_loc {β : Type} {x : β} {K : Forest β} : ∀ {F : Forest β}, F.Has x K →
    ∃ anc left right, Loc F anc left x K right
  | .cons _ _ r, Or.inl ⟨e1, e2⟩ => ⟨[], .nil, r, .root (by subst e1 e2; rfl)⟩
  | .cons _ _ _, Or.inr (Or.inl h) => by
    obtain ⟨anc, l, r, h⟩ := has_loc h
    exact ⟨_, _, _, h.in_kids⟩
  | .cons _ _ _, Or.inr (Or.inr h) => by
    obtain ⟨anc, l, r, h⟩ := has_loc h
    obtain ⟨l', h, _⟩ := h.in_rest
    exact ⟨_, _, _, h⟩

theorem Forest.loc_has {β : Type} {x : β} {K : Forest β} : ∀ {F : Forest β} {anc left right},
    Loc F anc left x K right → F.Has x K
  | .nil, _, _, _, h => by have := h.mem; simp [preorder] at this
  | .cons _ _ _, _, _, _, h => by
    rcases h.cases_cons with ⟨_, _, e1, e2, _⟩ | ⟨_, h, _⟩ | ⟨_, _, h⟩
    · exact Or.inl ⟨e1.symm, e2.symm⟩
    · exact Or.inr (Or.inr (loc_has h))
    · exact Or.inr (Or.inl (loc_has h))

theorem Forest.has_append {β : Type} {x : β} {K : Forest β} : ∀ {F G : Forest β},
    (F ++ G).Has x K ↔ F.Has x K ∨ G.Has x K
  | .nil, G => by rw [nil_append]; simp [Forest.Has]
  | .cons y k r, G => by
    rw [cons_append]
    simp only [Forest.Has]
    rw [has_append (F := r)]
    simp only [or_assoc]

/-- The node is completed: in the level being built or beside one of the open nodes. -/
def Nest.Has (n : Nest α) (x : Lab α) (K : Forest (Lab α)) : Prop :=
  n.cur.Has x K ∨ ∃ p ∈ n.stack, p.2.Has x K

theorem endParent_snd (c : Nat) (st : List (Lab α × Forest (Lab α))) :
    (Nest.endParent c st).map (·.2) = st.map (·.2) := by
  cases st <;> rfl

theorem growParent_snd (sp : Span) (st : List (Lab α × Forest (Lab α))) :
    (Nest.growParent sp st).map (·.2) = st.map (·.2) := by
  cases st <;> rfl

theorem stack_has {x : Lab α} {K : Forest (Lab α)} {st st' : List (Lab α × Forest (Lab α))}
    (h : st'.map (·.2) = st.map (·.2)) :
    (∃ p ∈ st', p.2.Has x K) ↔ ∃ p ∈ st, p.2.Has x K := by
  have aux : ∀ s : List (Lab α × Forest (Lab α)), (∃ p ∈ s, p.2.Has x K) ↔
      ∃ G ∈ s.map (·.2), G.Has x K := by
    intro s
    constructor
    · rintro ⟨p, hp, h⟩; exact ⟨p.2, List.mem_map_of_mem hp, h⟩
    · rintro ⟨G, hG, h⟩
      obtain ⟨p, hp, rfl⟩ := List.mem_map.1 hG
      exact ⟨p, hp, h⟩
  rw [aux, aux, h]

variable {x : Lab α} {K : Forest (Lab α)}

theorem Nest.Has.mono {n n' : Nest α} (h : n.Has x K) (hc : n.cur.Has x K → n'.cur.Has x K)
    (hs : n'.stack.map (·.2) = n.stack.map (·.2)) : n'.Has x K := by
  rcases h with h | h
  · exact Or.inl (hc h)
  · exact Or.inr ((stack_has hs).2 h)

theorem Nest.Has.addLeaf {n : Nest α} (h : n.Has x K) (d : α) (sp : Span) : (n.addLeaf d sp).Has x K :=
  h.mono (fun h => has_append.2 (Or.inl h)) (endParent_snd _ _)

theorem Nest.Has.addOpen {n : Nest α} (h : n.Has x K) (d : α) (sp : Span) :
    (n.addOpen d sp).Has x K := by
  rcases h with h | h
  · exact Or.inr ⟨_, List.mem_cons_self, h⟩
  · obtain ⟨p, hp, h⟩ := (stack_has (endParent_snd sp.stop n.stack)).2 h
    exact Or.inr ⟨p, List.mem_cons_of_mem _ hp, h⟩

theorem Forest.has_take_drop {β : Type} {x : β} {K : Forest β} (p : Nat) (F : Forest β) (h : F.Has x K) :
    (F.take p).Has x K ∨ (F.drop p).Has x K := by
  induction p generalizing F with
  | zero => exact Or.inr h
  | succ p ih =>
    cases F with
    | nil => exact absurd h (by simp [Forest.Has])
    | cons y k r =>
      simp only [Forest.take, Forest.drop, Forest.Has]
      rcases h with h | h | h
      · exact Or.inl (Or.inl h)
      · exact Or.inl (Or.inr (Or.inl h))
      · rcases ih r h with h | h
        · exact Or.inl (Or.inr (Or.inr h))
        · exact Or.inr h

theorem Nest.Has.wrap {n : Nest α} (h : n.Has x K) (p : Nat) (d : α) (e : Option Span) :
    (n.wrap p d e).Has x K := by
  unfold Nest.wrap
  split
  · exact h.addLeaf _ _
  · refine h.mono (fun h => ?_) rfl
    refine has_append.2 ?_
    rcases has_take_drop p _ h with h | h
    · exact Or.inl h
    · exact Or.inr (Or.inr (Or.inl h))

theorem Nest.Has.token {n : Nest α} (h : n.Has x K) (d : α) (len : Nat) :
    (n.token fl d len).1.Has x K := by
  unfold Nest.token
  split
  · split
    · exact h
    · exact h.addLeaf _ _
  · split
    · exact h
    · dsimp only
      split
      · exact h
      · exact Nest.Has.addLeaf (n := { n with cursor := _, stop := _ }) h _ _

theorem Nest.Has.closeAt {n n' : Nest α} {k : Nat} {d : α} {e : Option Span} {o : Except Err Out}
    (h : n.Has x K) (hs : n.closeAt fl k d e = some (n', o)) : n'.Has x K := by
  unfold Nest.closeAt at hs
  split at hs
  · simp only [Option.some.injEq, Prod.mk.injEq] at hs; rw [← hs.1]; exact h
  · split at hs
    · simp only [Option.some.injEq, Prod.mk.injEq] at hs; rw [← hs.1]; exact h
    · split at hs
      · simp only [Option.some.injEq, Prod.mk.injEq] at hs; rw [← hs.1]; exact h
      · split at hs
        · simp at hs
        · simp only [Option.some.injEq, Prod.mk.injEq] at hs; rw [← hs.1]; exact h.wrap _ _ _

theorem Nest.Has.step {n n' : Nest α} {op : Op α} {o : Except Err Out} (h : n.Has x K)
    (hs : n.step fl op = some (n', o)) : n'.Has x K := by
  cases op with
  | «open» d =>
    simp only [Nest.step, Nest.openWith, Option.some.injEq] at hs
    split at hs <;> simp only [Prod.mk.injEq] at hs <;> rw [← hs.1]
    · exact h
    · exact h.addOpen _ _
  | openWith d sp =>
    simp only [Nest.step, Nest.openWith, Option.some.injEq] at hs
    split at hs <;> simp only [Prod.mk.injEq] at hs <;> rw [← hs.1]
    · exact h
    · exact h.addOpen _ _
  | close =>
    simp only [Nest.step, Option.some.injEq] at hs
    cases hst : n.stack with
    | nil =>
      rw [hst] at hs
      simp only [Prod.mk.injEq] at hs
      rw [← hs.1]; exact h
    | cons p st =>
      obtain ⟨y, left⟩ := p
      rw [hst] at hs
      simp only [Prod.mk.injEq] at hs
      rw [← hs.1]
      rcases h with h | ⟨p, hp, h⟩
      · exact Or.inl (has_append.2 (Or.inr (Or.inr (Or.inl h))))
      · rw [hst] at hp
        rcases List.mem_cons.1 hp with rfl | hp
        · exact Or.inl (has_append.2 (Or.inl h))
        · exact Or.inr ((stack_has (growParent_snd y.span st)).2 ⟨p, hp, h⟩)
  | token d len =>
    simp only [Nest.step, Option.some.injEq] at hs
    have := h.token (fl := fl) d len
    rw [hs] at this; exact this
  | tokenEmpty d =>
    simp only [Nest.step, Option.some.injEq] at hs
    have := h.token (fl := fl) d 0
    rw [hs] at this; exact this
  | tokenWith d sp =>
    simp only [Nest.step, Option.some.injEq] at hs
    split at hs <;> simp only [Prod.mk.injEq] at hs <;> rw [← hs.1]
    · exact h
    · exact (h.addLeaf d sp).mono id (growParent_snd _ _)
  | checkpoint =>
    simp only [Nest.step, Option.some.injEq] at hs
    split at hs <;> simp only [Prod.mk.injEq] at hs <;> rw [← hs.1] <;> exact h
  | closeAt k d => exact h.closeAt hs
  | closeAtWith k d sp => exact h.closeAt hs
  | setCursor i =>
    simp only [Nest.step, Option.some.injEq, Prod.mk.injEq] at hs
    rw [← hs.1]; exact h

theorem Nest.Has.run {ops : List (Op α)} : ∀ {n n' : Nest α} {os : List (Except Err Out)},
    n.Has x K → n.run fl ops = some (n', os) → n'.Has x K := by
  induction ops with
  | nil =>
    intro n n' os h hr
    simp only [Nest.run, Option.some.injEq, Prod.mk.injEq] at hr
    rw [← hr.1]; exact h
  | cons op ops ih =>
    intro n n' os h hr
    simp only [Nest.run] at hr
    cases hs : n.step fl op with
    | none => rw [hs] at hr; simp at hr
    | some q =>
      obtain ⟨n1, o⟩ := q
      rw [hs] at hr
      simp only at hr
      cases hr1 : n1.run fl ops with
      | none => rw [hr1] at hr; simp at hr
      | some q =>
        obtain ⟨n2, os2⟩ := q
        rw [hr1] at hr
        simp only [Option.some.injEq, Prod.mk.injEq] at hr
        rw [← hr.1]
        exact ih (h.step hs) hr1

/-- Before the last open nodes were closed, the other nodes were there already. -/
theorem Nest.Has.of_closes (m : Nat) : ∀ {n n' : Nest α} {os : List (Except Err Out)},
    n.run fl (List.replicate m .close) = some (n', os) → n'.Has x K →
    x.id ∉ n.stack.map (·.1.id) → n.Has x K := by
  induction m with
  | zero =>
    intro n n' os hr h _
    simp only [List.replicate, Nest.run, Option.some.injEq, Prod.mk.injEq] at hr
    rw [hr.1]; exact h
  | succ m ih =>
    intro n n' os hr h hx
    simp only [List.replicate, Nest.run] at hr
    cases hs : n.step fl .close with
    | none => rw [hs] at hr; simp at hr
    | some q =>
      obtain ⟨n1, o⟩ := q
      rw [hs] at hr
      simp only at hr
      cases hr1 : n1.run fl (List.replicate m .close) with
      | none => rw [hr1] at hr; simp at hr
      | some q =>
        obtain ⟨n2, os2⟩ := q
        rw [hr1] at hr
        simp only [Option.some.injEq, Prod.mk.injEq] at hr
        rw [← hr.1] at h
        simp only [Nest.step, Option.some.injEq] at hs
        cases hst : n.stack with
        | nil =>
          rw [hst] at hs
          simp only [Prod.mk.injEq] at hs
          rw [← hs.1] at hr1
          exact ih hr1 h hx
        | cons p st =>
          obtain ⟨y, left⟩ := p
          rw [hst] at hs hx
          simp only [Prod.mk.injEq] at hs
          simp only [List.map_cons, List.mem_cons, not_or] at hx
          have h1 := ih hr1 h (by
            rw [← hs.1]
            simp only
            rw [map_growParent_id]; exact hx.2)
          rw [← hs.1] at h1
          rcases h1 with h1 | h1
          · rcases has_append.1 h1 with h1 | ⟨e, _⟩ | h1 | h1
            · exact Or.inr ⟨(y, left), by rw [hst]; exact List.mem_cons_self, h1⟩
            · exact absurd (by rw [e]) hx.1
            · exact Or.inl h1
            · exact absurd h1 (by simp [Forest.Has])
          · obtain ⟨p, hp, h1⟩ := (stack_has (growParent_snd y.span st)).1 h1
            exact Or.inr ⟨p, by rw [hst]; exact List.mem_cons_of_mem _ hp, h1⟩

/-- A node that is not open after `pre` has the same children however the history goes on. -/
theorem subtree_final {pre post : List (Op α)} {m : Nat} {t1 t2 : Tree α} {F1 F2 : Forest (Lab α)}
    (h1 : Built fl (pre ++ List.replicate m .close) t1 F1) (h2 : Built fl (pre ++ post) t2 F2)
    (hF : F1.Has x K) (hx : x.id ∉ openIds [] pre (Sys.init.run fl pre).2) : F2.Has x K := by
  obtain ⟨n1, os1, e1, b1, _⟩ := h1
  obtain ⟨n2, os2, e2, b2, _⟩ := h2
  rw [Nest.run_append] at e1 e2
  cases hp : Nest.init.run fl pre with
  | none => rw [hp] at e1; simp at e1
  | some q =>
    obtain ⟨n, os⟩ := q
    rw [hp] at e1 e2
    simp only at e1 e2
    rw [run_results hp] at hx
    have ho := Nest.run_open hp
    simp only [Nest.init, List.map_nil] at ho
    rw [← ho] at hx
    cases hc : n.run fl (List.replicate m .close) with
    | none => rw [hc] at e1; simp at e1
    | some q =>
      obtain ⟨n1', os1'⟩ := q
      rw [hc] at e1
      simp only [Option.some.injEq, Prod.mk.injEq] at e1
      obtain ⟨rfl, _⟩ := e1
      cases hq : n.run fl post with
      | none => rw [hq] at e2; simp at e2
      | some q =>
        obtain ⟨n2', os2'⟩ := q
        rw [hq] at e2
        simp only [Option.some.injEq, Prod.mk.injEq] at e2
        obtain ⟨rfl, _⟩ := e2
        obtain ⟨_, rfl⟩ := built_iff.1 b1
        obtain ⟨hs2, rfl⟩ := built_iff.1 b2
        rcases (Nest.Has.of_closes m hc (Or.inl hF) hx).run hq with h | ⟨p, hp, _⟩
        · exact h
        · rw [hs2] at hp; simp at hp

end Syntree
