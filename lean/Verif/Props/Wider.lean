import Verif.Proof.Narrow
import Verif.Proof.WiderEdit

/-!
# Property C69: the size of the index and of the pointers

`Wider a b i j`: the flavors `a` and `b` differ only in the number of bits of the index (`i` and `j`,
`i ≤ j`) and of the pointers.
-/

namespace Syntree

variable {α : Type} {a b : Flavor} {i j : Nat}

/-- C69: every history (any calls, also misused checkpoints and failing calls), done with both
flavors: either all results and the builders at the end are the same, or there is a first call with a
different result. That call reports `Overflow` in the smaller flavor, and for a reason: the pointers
of the smaller flavor are used up, or it adds a token whose end does not fit into the smaller index
(and does fit into the larger one); in the latter case it leaves the builder as it was. -/
theorem C69_first_difference (w : Wider a b i j) (ops : List (Op α)) :
    Sys.init.run a ops = Sys.init.run b ops ∨
      ∃ pre op post, ops = pre ++ op :: post ∧ Sys.init.run a pre = Sys.init.run b pre ∧
        ((Sys.init.run a pre).1.step a op).2 = .error .overflow ∧
        (2 ^ a.width - 1 ≤ (Sys.init.run a pre).1.b.tree.len ∨
          ((Sys.init.run a pre).1.step a op).1 = (Sys.init.run a pre).1 ∧
          ∃ d len, op = .token d len ∧ len ≠ 0 ∧
            2 ^ i ≤ (Sys.init.run a pre).1.b.cursor + len ∧
            (Sys.init.run a pre).1.b.cursor + len < 2 ^ j) := by
  rcases w.run ops Sys.init with h | ⟨pre, op, post, h1, h2, h3, h4⟩
  · exact .inl h
  · rw [← h2] at h3 h4
    exact .inr ⟨pre, op, post, h1, h2, h3, h4⟩

/-- C69: a history in which no call reports `Overflow` has the same results with every larger index
and larger pointers, and builds the same tree. -/
theorem C69_larger_is_the_same (w : Wider a b i j) {ops : List (Op α)}
    (h : ∀ o ∈ (Sys.init.run a ops).2, o ≠ .error .overflow) :
    (Sys.init.run a ops).2 = (Sys.init.run b ops).2 ∧
      (Sys.init.run a ops).1.b.build = (Sys.init.run b ops).1.b.build := by
  rcases w.run ops Sys.init with e | ⟨pre, op, post, h1, h2, h3, _⟩
  · rw [e]; exact ⟨rfl, rfl⟩
  · exfalso
    subst h1
    rw [Sys.run_append] at h
    refine h (.error .overflow) ?_ rfl
    rw [← h2] at h3
    simp only [Sys.run, List.mem_append, List.mem_cons]
    exact .inr (.inl h3.symm)

/-- C69: and a history without explicit spans that succeeds with the larger flavor succeeds with the
smaller one if the length of the text and the number of nodes fit. -/
theorem C69_smaller_is_the_same (w : Wider a b i j) {ops : List (Op α)} {t : Tree α}
    {F : Forest (Lab α)} (hc : Clean b ops) (h : Built b ops t F) (h1 : t.span.stop < 2 ^ i)
    (h2 : t.len < 2 ^ a.width - 1) :
    Clean a ops ∧ Built a ops t F := h.narrow w hc h1 h2

/-- Indexes of 8 and of 32 bits: a token that ends at 300. -/
example : Wider ⟨.bits 8, 8, true⟩ ⟨.bits 32, 64, true⟩ 8 32 ∧
    (Sys.init.run ⟨.bits 8, 8, true⟩ [.token 1 200, .token 2 100, .token 3 20]).2.map (idOf ·) =
      [some 0, none, some 1] ∧
    (Sys.init.run ⟨.bits 32, 64, true⟩ [.token 1 200, .token 2 100, .token 3 20]).2.map (idOf ·) =
      [some 0, some 1, some 2] := by
  refine ⟨⟨rfl, rfl, by decide, by decide, rfl⟩, by decide, by decide⟩

example : (Sys.init.run (α := Nat) ⟨.bits 8, 8, true⟩ [.open 0, .token 1 200, .token 2 55, .close]).2 =
    (Sys.init.run ⟨.bits 32, 64, true⟩ [.open 0, .token 1 200, .token 2 55, .close]).2 :=
  (C69_larger_is_the_same (a := ⟨.bits 8, 8, true⟩) (b := ⟨.bits 32, 64, true⟩) (i := 8) (j := 32)
    ⟨rfl, rfl, by decide, by decide, rfl⟩ (by
    intro o ho
    have : o ∈ ([.ok (.id 0), .ok (.id 1), .ok (.id 2), .ok .unit] : List (Except Err Out)) := ho
    simp only [List.mem_cons, List.not_mem_nil, or_false] at this
    rcases this with rfl | rfl | rfl | rfl <;> simp)).1

example : ∃ t F, Built (α := Nat) ⟨.bits 8, 8, true⟩ [.open 0, .token 1 200, .token 2 55, .close] t F := by
  obtain ⟨t, F, hb, h1, h2⟩ : ∃ t F, Built (α := Nat) ⟨.bits 32, 64, true⟩
      [.open 0, .token 1 200, .token 2 55, .close] t F ∧ t.span.stop = 255 ∧ t.len = 3 :=
    ⟨_, _, ⟨_, _, rfl, rfl, rfl⟩, rfl, rfl⟩
  refine ⟨t, F, (C69_smaller_is_the_same (a := ⟨.bits 8, 8, true⟩) (b := ⟨.bits 32, 64, true⟩) (i := 8) (j := 32)
    ⟨rfl, rfl, by decide, by decide, rfl⟩ ⟨by decide, ?_⟩ hb (by omega) (by rw [h2]; decide)).2⟩
  intro o ho
  have : o ∈ ([.ok (.id 0), .ok (.id 1), .ok (.id 2), .ok .unit] : List (Except Err Out)) := ho
  simp only [List.mem_cons, List.not_mem_nil, or_false] at this
  rcases this with rfl | rfl | rfl | rfl <;> exact ⟨_, rfl⟩

/-- C69 for `modify`, on any tree and any change set: what it returns with the smaller flavor it returns with the
larger one; and what it returns with the larger one it returns with the smaller one, if the text and the nodes (and one
more) of the result fit. -/
theorem C69_modify (w : Wider a b i j) (c : ChangeSet) (t t' : Tree α) :
    (c.modify a t = .ok t' → c.modify b t = .ok t') ∧
    (c.modify b t = .ok t' → t'.span.stop < 2 ^ i → t'.len < 2 ^ a.width - 1 → c.modify a t = .ok t') := by
  unfold ChangeSet.modify
  dsimp only
  constructor
  · intro h
    cases e : ModState.loop a c.changes t.nodes ((c.changes.length + 1) * (t.nodes.length + 1) + 1)
        ⟨Tree.empty, ⟨[], none⟩, 0, t.firstNode.map (·, false)⟩ with
    | error x => rw [e] at h; simp at h
    | ok st => rw [e] at h; rw [w.loop_same (.inl e)] at e; rw [e]; exact h
  · intro h h1 h2
    cases e : ModState.loop b c.changes t.nodes ((c.changes.length + 1) * (t.nodes.length + 1) + 1)
        ⟨Tree.empty, ⟨[], none⟩, 0, t.firstNode.map (·, false)⟩ with
    | error x => rw [e] at h; simp at h
    | ok st =>
      rw [e] at h
      simp only [Except.ok.injEq] at h
      subst h
      rw [w.loop_same (.inr ⟨e, h1, h2⟩), e]

/-- A text of 10 bytes is copied with an index of 32 bits, and would not be with one of 3 bits. -/
example : ∃ t t' : Tree Nat, (ChangeSet.new.modify Flavor.default t = .ok t') ∧ t'.span.stop = 10 ∧
    ChangeSet.new.modify ⟨.bits 3, 8, true⟩ t = .error .overflow :=
  ⟨(Sys.init.run (α := Nat) Flavor.default [.open 0, .token 1 5, .token 2 5, .close]).1.b.tree, _, rfl, rfl, rfl⟩

/-- A text of 7 bytes is copied in the same way with both. -/
example : ∃ t t' : Tree Nat, ChangeSet.new.modify Flavor.default t = .ok t' ∧ t'.span.stop = 7 ∧
    ChangeSet.new.modify ⟨.bits 3, 8, true⟩ t = .ok t' :=
  ⟨(Sys.init.run (α := Nat) Flavor.default [.open 0, .token 1 5, .token 2 2, .close]).1.b.tree, _, rfl, rfl,
    (C69_modify (a := ⟨.bits 3, 8, true⟩) (b := Flavor.default) (i := 3) (j := 32)
      ⟨rfl, rfl, by decide, by decide, rfl⟩ _ _ _).2 rfl (by decide) (by decide)⟩

end Syntree
