import Verif.Proof.Made
import Verif.Proof.Unused
import Verif.Proof.Index

/-! The links of a tree are determined by its nested list. -/

namespace Syntree

open Forest

variable {α : Type} {fl : Flavor}

theorem LastRel.unique {g g' : Bool} {o l l' : Option Nat} {k : Forest (Lab α)} (h : LastRel g o l k)
    (h' : LastRel g' o l' k) : l = l' := h.2.2.2.trans h'.2.2.2.symm

theorem Seg.unique {g g' : Bool} {nodes nodes' : List (Links α)} {F : Forest (Lab α)}
    {par prev nxt : Option Nat} (h : Seg g nodes F par prev nxt) (h' : Seg g' nodes' F par prev nxt) :
    ∀ i ∈ F.ids, nodes[i]? = nodes'[i]? := by
  induction F generalizing par prev nxt with
  | nil => simp
  | cons x k r ihk ihr =>
    obtain ⟨⟨l, hl, hx⟩, hk, hr⟩ := h
    obtain ⟨⟨l', hl', hx'⟩, hk', hr'⟩ := h'
    intro i hi
    simp only [ids_cons, List.mem_cons, List.mem_append] at hi
    rcases hi with rfl | hi | hi
    · rw [hx, hx', hl.unique hl']
    · exact ihk hk hk' i hi
    · exact ihr hr hr' i hi

theorem Represents.unique {g g' : Bool} {t t' : Tree α} {F : Forest (Lab α)} (h : Represents g t F)
    (h' : Represents g' t' F) : t.nodes = t'.nodes ∧ t.first = t'.first ∧ t.last = t'.last := by
  have hlen : t.nodes.length = t'.nodes.length := by rw [← h.size, ← h'.size]
  refine ⟨?_, by rw [h.first, h'.first], h.last.unique h'.last⟩
  apply List.ext_getElem? 
  intro i
  by_cases hi : i < t.nodes.length
  · exact h.root.unique h'.root i (h.perm.mem_iff.2 (by simpa using hi))
  · rw [List.getElem?_eq_none_iff.2 (by omega), List.getElem?_eq_none_iff.2 (by omega)]

/-- Both systems, call by call. -/
theorem unused_run {k : Nat} {ops : List (Op α)} : ∀ {s s' : Sys α} {n n' : Nest α}
    {os : List (Except Err Out)}, Rel false s n → Rel false s' (n.without k) →
    s'.b.tree.indexes = s.b.tree.indexes → k < n.marks.length →
    (∀ op ∈ ops, ∀ d e, ¬ UsesAt op k d e) → n.run fl ops = some (n', os) →
    Rel false (s.run fl ops).1 n' ∧ Rel false (s'.run fl (ops.map (Op.without k))).1 (n'.without k) ∧
    (s'.run fl (ops.map (Op.without k))).1.b.tree.indexes = (s.run fl ops).1.b.tree.indexes ∧
    (s.run fl ops).2 = os ∧
    (s'.run fl (ops.map (Op.without k))).2 = os.map (Except.map (Out.without k)) := by
  induction ops with
  | nil =>
    intro s s' n n' os h1 h2 h3 _ _ hr
    simp only [Nest.run, Option.some.injEq, Prod.mk.injEq] at hr
    obtain ⟨rfl, rfl⟩ := hr
    exact ⟨h1, h2, h3, rfl, rfl⟩
  | cons op ops ih =>
    intro s s' n n' os h1 h2 h3 hk hu hr
    simp only [Nest.run] at hr
    cases hs : n.step fl op with
    | none => rw [hs] at hr; simp at hr
    | some q =>
      obtain ⟨n1, o⟩ := q
      rw [hs] at hr
      simp only at hr
      cases hr1 : n1.run fl ops with
      | none => rw [hr1] at hr; simp at hr
      | some q =>
        obtain ⟨n2, os2⟩ := q
        rw [hr1] at hr
        simp only [Option.some.injEq, Prod.mk.injEq] at hr
        obtain ⟨rfl, rfl⟩ := hr
        have hw := n.step_without (fl := fl) hk (hu op List.mem_cons_self)
        rw [hs] at hw
        simp only [Option.map_some, stepWithout] at hw
        obtain ⟨s1, e1, r1⟩ := h1.step (g' := false) fl op hs (by simp)
        obtain ⟨s1', e1', r1'⟩ := h2.step (g' := false) fl (op.without k) hw (by simp)
        have i1 := Sys.step_indexes (fl := fl) s op
        have i1' := Sys.step_indexes (fl := fl) s' (op.without k)
        rw [e1] at i1
        rw [e1'] at i1'
        simp only [r1.cursor] at i1
        simp only [r1'.cursor] at i1'
        have hp : pushed fl (op.without k) (o.map (Out.without k)) (n1.without k).cursor =
            pushed fl op o n1.cursor := by
          have hc : (n1.without k).cursor = n1.cursor := rfl
          rw [hc]
          cases op <;> cases o <;> try rfl
          all_goals rename_i v; cases v <;> rfl
        have hidx : s1'.b.tree.indexes = s1.b.tree.indexes := by rw [i1, i1', h3, hp]
        have hle := (Nest.step_did hs).marks_le
        have := ih r1 r1' hidx (by omega) (fun o ho => hu o (List.mem_cons_of_mem _ ho)) hr1
        obtain ⟨a1, a2, a3, a4, a5⟩ := this
        simp only [List.map_cons, Sys.run, e1, e1', a4, a5]
        exact ⟨a1, a2, a3, trivial, trivial⟩

end Syntree
