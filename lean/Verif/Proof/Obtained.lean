import Verif.Spec.Obtained
import Verif.Proof.EditHalf
import Verif.Proof.EditPaths

/-! Every tree a program can get hold of is sane. -/

namespace Syntree

variable {α : Type} {fl : Flavor}

open Forest

theorem Sane.modify {t : Tree α} (h : Sane t) (c : ChangeSet) :
    ∃ F : Forest (Lab α), InSeg t.nodes F ∧ t.firstNode = F.headId ∧ F.ids.Nodup ∧
      (∀ x ∈ F.ids, x < t.nodes.length) ∧
      ((∃ e, c.machine fl F = .error e ∧ c.modify fl t = .error .overflow) ∨
      ∃ n t', c.machine fl F = .ok n ∧ c.modify fl t = .ok t' ∧ Represents true t' n.cur ∧
        n.cur.Numbered ∧ t'.span = ⟨0, n.cursor⟩ ∧ t'.len = n.count ∧
        EndToEnd 0 n.cur.leaves n.cursor ∧
        ∀ p ∈ (n.cur.map (·.data)).pathsUp [], p ∈ (F.map (·.data)).pathsUp []) := by
  obtain ⟨F, h1, h2, h3, h4, h5⟩ := h.half
  refine ⟨F, h1, h2, h3, h4, ?_⟩
  obtain ⟨s1, s2⟩ := modify_half (fl := fl) h1 h2 h5 c
  cases hm : c.machine fl F with
  | error e =>
    left
    exact ⟨e, rfl, by rw [s1 e hm, machine_total c F hm]⟩
  | ok n =>
    right
    obtain ⟨t', g1, g2, g3, g4⟩ := s2 n hm
    have hi := machine_inv hm
    have hst : n.stack = [] := (machine_in hm).1
    have hsz : t'.len = n.cur.size := g2.size.symm
    refine ⟨n, t', rfl, g1, g2, ?_, g3, g4, ?_, (machine_in hm).2⟩
    · have := hi.out.ids
      rw [hst] at this
      rw [Forest.Numbered, ← hsz, g4]
      exact this
    · have := hi.out.laid
      rw [hst] at this
      exact this

theorem Sane.replace {t : Tree α} (h : Sane t) (i : Nat) (v : α) : Sane (t.replace i v).1 := by
  obtain ⟨own, rank, ho, hf⟩ := h
  have hlen : (t.replace i v).1.nodes.length = t.nodes.length := by
    simp only [Tree.replace, nodeReplace]
    cases t.nodes[i]? <;> simp
  refine ⟨own, rank, ho.same hlen ?_, ?_⟩
  · intro j l' hj
    simp only [Tree.replace, nodeReplace] at hj
    cases hl : t.nodes[i]? with
    | none =>
      simp only [hl] at hj
      exact ⟨l', hj, rfl, rfl, rfl, rfl, rfl⟩
    | some l =>
      simp only [hl] at hj
      by_cases hij : i = j
      · subst hij
        rw [List.getElem?_set_self (get_lt hl)] at hj
        simp only [Option.some.injEq] at hj
        subst hj
        exact ⟨l, hl, rfl, rfl, rfl, rfl, rfl⟩
      · rw [List.getElem?_set_ne hij] at hj
        exact ⟨l', hj, rfl, rfl, rfl, rfl, rfl⟩
  · intro f hx
    obtain ⟨h1, l, h2, h3⟩ := hf f hx
    refine ⟨h1, ?_⟩
    simp only [Tree.replace, nodeReplace]
    cases hl : t.nodes[i]? with
    | none => exact ⟨l, h2, h3⟩
    | some li =>
      by_cases hif : i = f
      · subst hif
        rw [hl] at h2
        simp only [Option.some.injEq] at h2
        subst h2
        exact ⟨_, List.getElem?_set_self (get_lt hl), h3⟩
      · exact ⟨l, (List.getElem?_set_ne hif).trans h2, h3⟩

theorem Obtained.sane {t : Tree α} (h : Obtained t) : Sane t := by
  induction h with
  | @built ops w os i fl b t hw hb hbuild =>
    have hb' : ((World.init : World α).run ops).1.builders[i]? = some (fl, b) := by rw [hw]; exact hb
    have := own_reachable ops hb'
    unfold Builder.build at hbuild
    split at hbuild
    · simp at hbuild
    · simp only [Except.ok.injEq] at hbuild
      subst hbuild; exact this
  | @edited t t' fl c _ hm ih =>
    obtain ⟨F, _, _, _, _, ⟨e, _, h2⟩ | ⟨n, t'', _, g1, g2, g3, _⟩⟩ := ih.modify (fl := fl) c
    · rw [h2] at hm; simp at hm
    · rw [hm] at g1
      simp only [Except.ok.injEq] at g1
      subst g1
      exact g2.sane g3
  | replaced _ ih => exact ih.replace _ _

end Syntree
