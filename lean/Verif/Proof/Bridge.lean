import Verif.Proof.Nav

/-! From histories to represented trees. -/

namespace Syntree

variable {α : Type}

open Forest

theorem built_iff {n : Nest α} {F : Forest (Lab α)} :
    n.built = .ok F ↔ n.stack = [] ∧ n.cur = F := by
  unfold Nest.built
  cases n.stack <;> simp

theorem Rel.build {g : Bool} {s : Sys α} {n : Nest α} (h : Rel g s n) :
    s.b.build = if n.stack = [] then .ok s.b.tree else .error .buildError := by
  unfold Builder.build
  rw [h.parent, Nest.frame]
  cases n.stack <;> simp

theorem Built.represents {fl : Flavor} {ops : List (Op α)} {t : Tree α} {F : Forest (Lab α)}
    (h : Built fl ops t F) : Represents false t F := by
  obtain ⟨n, os, h1, h2, h3⟩ := h
  obtain ⟨s, e, r⟩ := (Rel.init false).run (g' := false) fl ops h1 (by simp)
  rw [e] at h3
  obtain ⟨hs, hc⟩ := built_iff.1 h2
  rw [r.build, if_pos hs] at h3
  simp only [Except.ok.injEq] at h3
  rw [← h3, ← hc]
  exact r.represents hs

theorem Built.represents_gentle {fl : Flavor} {ops : List (Op α)} {t : Tree α}
    {F : Forest (Lab α)} (h : Built fl ops t F) (hg : Nest.GentleRun fl Nest.init ops) :
    Represents true t F := by
  obtain ⟨n, os, h1, h2, h3⟩ := h
  obtain ⟨s, e, r⟩ := (Rel.init true).run (g' := true) fl ops h1 (fun _ => ⟨rfl, hg⟩)
  rw [e] at h3
  obtain ⟨hs, hc⟩ := built_iff.1 h2
  rw [r.build, if_pos hs] at h3
  simp only [Except.ok.injEq] at h3
  rw [← h3, ← hc]
  exact r.represents hs

end Syntree
