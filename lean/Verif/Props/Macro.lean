import Verif.Proof.Macro
import Verif.Spec.Macro

/-! # C01: literals -/

namespace Syntree

variable {α : Type} {fl : Flavor}

open Forest

/-- The tree of a literal in terms of the results of its calls. -/
theorem Lit.tree_eq (lit : Lit α) :
    lit.tree fl = match firstErr (Sys.init.run fl lit.calls).2 with
      | none => (Sys.init.run fl lit.calls).1.b.build
      | some e => .error e := by
  unfold Lit.tree
  rw [Sys.tryRun_eq]
  cases firstErr (Sys.init.run fl lit.calls).2 <;> rfl

/-- C01: a literal without explicit spans that fits the flavor builds, and walking over the tree
lists exactly the nodes of the literal: same nesting, same order, same values, ids in document order
and the spans obtained by laying the token lengths end to end. `len()` is the number of items and
`span()` covers the whole text. -/
theorem C01_literal_round_trip (lit : Lit α) (hp : lit.plain = true) (hf : lit.Fits fl) :
    ∃ t, lit.tree fl = .ok t ∧ t.listing = some (lit.layout fl.ik 0 0).listing ∧
      t.len = lit.count ∧ t.span = ⟨0, lit.len fl.ik⟩ ∧
      Built fl lit.calls t (lit.layout fl.ik 0 0) := by
  obtain ⟨n', os, h1, h⟩ := lit.run_plain (fl := fl) Nest.init hp rfl trivial (Nat.zero_le _)
    (hf.2.mono (Nat.zero_le _))
  obtain ⟨_, _, h3, h4⟩ | h := h
  · obtain ⟨s, e, r⟩ := (Rel.init false).run (g' := false) fl lit.calls h1 (by simp)
    have hst : n'.stack = [] := by rw [h4]; rfl
    have hcur : n'.cur = lit.layout fl.ik 0 0 := by rw [h4]; rfl
    have hb : s.b.build = .ok s.b.tree := by rw [r.build, if_pos hst]
    have hB : Built fl lit.calls s.b.tree (lit.layout fl.ik 0 0) :=
      ⟨n', os, h1, built_iff.2 ⟨hst, hcur⟩, by rw [e]; exact hb⟩
    refine ⟨s.b.tree, ?_, hB.represents.listing, ?_, ?_, hB⟩
    · rw [Lit.tree_eq, e, h3]; exact hb
    · show s.b.tree.nodes.length = _
      rw [r.tree.len, h4]
      simp [Lit.after, Nest.init]
    · rw [r.span, h4]
      simp [Lit.after, Nest.init]
  · exact absurd (by simpa [Nest.init, Lit.Fits] using hf) h.1

/-- C01, the other direction: a literal without explicit spans that does not fit fails with
`Overflow`. So it builds if and only if it fits. -/
theorem C01_literal_overflow (lit : Lit α) (hp : lit.plain = true) (hf : ¬ lit.Fits fl) :
    lit.tree fl = .error .overflow := by
  obtain ⟨n', os, h1, h⟩ := lit.run_plain (fl := fl) Nest.init hp rfl trivial (Nat.zero_le _) (by
    cases fl.ik with
    | empty => trivial
    | bits w => exact Nat.two_pow_pos w)
  obtain ⟨a, b, _⟩ | h := h
  · exact absurd ⟨by simpa [Nest.init] using a, by simpa [Nest.init] using b⟩ hf
  · obtain ⟨s, e, r⟩ := (Rel.init false).run (g' := false) fl lit.calls h1 (by simp)
    rw [Lit.tree_eq, e, h.2]

/-- C01 for all literals, with explicit spans in any place: the only error is `Overflow`, and if the
literal builds, the tree has exactly the nesting, order and values that are written. -/
theorem C01_literal_values (lit : Lit α) :
    (∃ t F, lit.tree fl = .ok t ∧ Built fl lit.calls t F ∧ F.map (·.data) = lit.values ∧
      t.listing = some F.listing ∧ t.len = lit.count) ∨
    lit.tree fl = .error .overflow := by
  obtain ⟨n', os, h1, h⟩ := lit.run_values (fl := fl) Nest.init
  obtain ⟨s, e, r⟩ := (Rel.init false).run (g' := false) fl lit.calls h1 (by simp)
  obtain ⟨h2, h3, h4, h5⟩ | h := h
  · left
    have hst : n'.stack = [] := by
      have : bare n'.stack = [] := h4
      simpa [bare] using this
    have hb : s.b.build = .ok s.b.tree := by rw [r.build, if_pos hst]
    have hB : Built fl lit.calls s.b.tree n'.cur :=
      ⟨n', os, h1, built_iff.2 ⟨hst, rfl⟩, by rw [e]; exact hb⟩
    refine ⟨s.b.tree, n'.cur, ?_, hB, h3, hB.represents.listing, ?_⟩
    · rw [Lit.tree_eq, e, h2]; exact hb
    · show s.b.tree.nodes.length = _
      rw [r.tree.len, h5]
      simp [Nest.init]
  · right
    rw [Lit.tree_eq, e, h]

/-- The literal of the documentation of `tree!` (`src/macros.rs:33-44`); 0 is `Root`, 1 `Number`,
2 `Lit`, 3 `Whitespace`. -/
def docLit : Lit Nat :=
  .node 0 (.node 1 (.token 2 1 .nil) (.token 3 3 (.node 1 (.token 2 2 (.tokenEmpty 2 .nil)) .nil))) .nil

example : docLit.plain = true ∧ docLit.Fits Flavor.default := by
  refine ⟨rfl, ?_, ?_⟩ <;> simp [docLit, Lit.count, Flavor.default, Lit.Addressable, Lit.len, Lit.tokenLen]

/-- What the round trip says about it. -/
example : (docLit.layout (.bits 32) 0 0).listing =
    [(0, 0, some 0, some ⟨0, 6⟩), (1, 1, some 1, some ⟨0, 1⟩), (2, 2, some 2, some ⟨0, 1⟩),
      (1, 3, some 3, some ⟨1, 4⟩), (1, 4, some 1, some ⟨4, 6⟩), (2, 5, some 2, some ⟨4, 6⟩),
      (2, 6, some 2, some ⟨6, 6⟩)] := rfl

/-- With pointers of two bits there is room for three nodes only. -/
example : docLit.plain = true ∧ ¬ docLit.Fits ⟨.bits 32, 2, true⟩ := by
  refine ⟨rfl, fun h => ?_⟩
  have := h.1
  simp [docLit, Lit.count] at this

/-- A text of length 8 is too long for an index of three bits. -/
example : ¬ (Lit.token 0 8 .nil).Fits ⟨.bits 3, 8, true⟩ := by
  intro h
  have := h.2
  simp [Lit.Addressable, Lit.len, Lit.tokenLen] at this

/-- A literal with explicit spans builds. -/
example : ∃ t, (Lit.nodeWith 0 ⟨2, 5⟩ (.tokenWith 1 ⟨2, 5⟩ .nil) (.token 2 3 .nil)).tree
    Flavor.default = .ok t := ⟨_, rfl⟩

end Syntree
