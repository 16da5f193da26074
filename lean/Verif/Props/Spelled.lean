import Verif.Proof.Spelled
import Verif.Props.Equal
import Verif.Model.Search

/-!
# Property C82: the calls that use the cursor are shorthands for the calls with explicit spans

`spelled` writes a history out the way a client can who reads `cursor()` before every call: `open(d)` becomes
`open_with(d, c..c)`, `token(d, len)` becomes `token_with(d, c..c+len)` and `close_at(k, d)` becomes
`close_at_with(k, d, s..c)`, where `c` is the cursor and `s` what the cursor was when the checkpoint was taken.
-/

namespace Syntree

open Forest

variable {α : Type} {fl : Flavor} {ops : List (Op α)} {t : Tree α} {F : Forest (Lab α)}

theorem spelled_init {n : Nest α} {os : List (Except Err Out)}
    (h : Nest.init.run fl ops = some (n, os)) (hc : ∀ op ∈ ops, op.cursorDriven = true)
    (ho : ∀ o ∈ (Sys.init.run fl ops).2, o ≠ .error .overflow) :
    ∃ ix, Sys.init.run fl (spelled fl Sys.init [] ops) =
      ((Sys.init.run fl ops).1.recast (Span.point 0) ix, (Sys.init.run fl ops).2) := by
  obtain ⟨s, e, _⟩ := (Rel.init false).run (g' := false) fl ops h (by simp)
  rw [e] at ho
  obtain ⟨ix, h1⟩ := spelled_run (fl := fl) ops (Rel.init false) SpanInv.init StartInv.init h hc ho
    (Span.point 0) []
  refine ⟨ix, ?_⟩
  have : (Sys.init.run fl ops).2 = os := by rw [e]
  rw [this]
  exact h1

/-- C82: as long as no call reports `Overflow`, the written out history returns the same results call by call
(ids, checkpoints and errors), leaves `cursor()` at the same place, and `build()` fails alike or returns a tree
with the very same nodes: the same links, values and spans. Only the span of the whole tree stays `0..0`. -/
theorem C82_spelled_out {n : Nest α} {os : List (Except Err Out)}
    (h : Nest.init.run fl ops = some (n, os)) (hc : ∀ op ∈ ops, op.cursorDriven = true)
    (ho : ∀ o ∈ (Sys.init.run fl ops).2, o ≠ .error .overflow) :
    let s := Sys.init.run fl ops
    let s' := Sys.init.run fl (spelled fl Sys.init [] ops)
    s'.2 = s.2 ∧ s'.1.b.cursor = s.1.b.cursor ∧ s'.1.b.tree.getSpan = ⟨0, 0⟩ ∧
    (∀ e, s.1.b.build = .error e → s'.1.b.build = .error e) ∧
    (∀ t, s.1.b.build = .ok t → ∃ t', s'.1.b.build = .ok t' ∧ t'.nodes = t.nodes ∧
      t'.firstNode = t.firstNode ∧ t'.lastNode = t.lastNode) := by
  obtain ⟨ix, e⟩ := spelled_init h hc ho
  intro s s'
  have e' : s' = (s.1.recast (Span.point 0) ix, s.2) := e
  rw [e']
  have hb : (s.1.recast (Span.point 0) ix).b.build =
      s.1.b.build.map fun t => t.recast (Span.point 0) ix := by
    unfold Builder.build
    show (if s.1.b.parent.isSome = true then _ else _) = _
    split <;> rfl
  refine ⟨rfl, rfl, rfl, ?_, ?_⟩
  · intro er he
    rw [hb, he]; rfl
  · intro t ht
    rw [hb, ht]
    exact ⟨_, rfl, rfl, rfl, rfl⟩

/-- What the example history looks like when it is written out: a node that is opened after a token, a checkpoint in
it that is used after two more tokens, one of them empty. -/
def cursorOps : List (Op Nat) :=
  [.token 1 2, .open 2, .checkpoint, .token 3 4, .tokenEmpty 4, .closeAt 0 5, .close, .close, .token 6 1]

example : spelled Flavor.default Sys.init [] cursorOps =
    [.tokenWith 1 ⟨0, 2⟩, .openWith 2 ⟨2, 2⟩, .checkpoint, .tokenWith 3 ⟨2, 6⟩, .tokenWith 4 ⟨6, 6⟩,
      .closeAtWith 0 5 ⟨2, 6⟩, .close, .close, .tokenWith 6 ⟨6, 7⟩] := by decide

example : ∃ n os, Nest.init.run Flavor.default cursorOps = some (n, os) ∧
    (∀ op ∈ cursorOps, op.cursorDriven = true) ∧
    (∀ o ∈ (Sys.init.run Flavor.default cursorOps).2, o ≠ .error .overflow) ∧
    (Sys.init.run Flavor.default cursorOps).2[7]? = some (.error .closeError) :=
  ⟨_, _, rfl, by decide, by simp [show (Sys.init.run Flavor.default cursorOps).2 = [.ok (.id 0), .ok (.id 1),
    .ok (.handle 0), .ok (.id 2), .ok (.id 3), .ok (.id 4), .ok .unit, .error .closeError, .ok (.id 5)] by rfl],
    by rfl⟩

/-- C82: the two trees are equal, and a walk over them shows the same ids, depths, values and spans. -/
theorem C82_equal [DecidableEq α] (h : Built fl ops t F) (hc : ∀ op ∈ ops, op.cursorDriven = true)
    (ho : ∀ o ∈ (Sys.init.run fl ops).2, o ≠ .error .overflow) :
    ∃ t', (Sys.init.run fl (spelled fl Sys.init [] ops)).1.b.build = .ok t' ∧ t.eq t' = some true ∧
      t'.eq t = some true ∧ t'.listing = t.listing := by
  have h0 := h
  obtain ⟨n, os, h1, _, h3⟩ := h0
  obtain ⟨ix, e⟩ := spelled_init h1 hc ho
  refine ⟨t.recast (Span.point 0) ix, ?_, ?_, ?_, rfl⟩
  · rw [e]
    unfold Builder.build at h3 ⊢
    show (if (Sys.init.run fl ops).1.b.parent.isSome = true then _ else _) = _
    split at h3
    · simp at h3
    · rename_i hp
      simp only [Except.ok.injEq] at h3
      rw [if_neg hp, ← h3]; rfl
  · exact (C39_equivalence (.built h) (.built h) (.built h)).1
  · exact (C39_equivalence (.built h) (.built h) (.built h)).1

example : ∃ t F, Built Flavor.default cursorOps t F ∧ t.len = 6 ∧ t.getSpan = ⟨0, 7⟩ :=
  ⟨_, _, ⟨_, _, rfl, rfl, rfl⟩, rfl, rfl⟩

/-- C82: what differs is where a node is found by its range: the index of a token is its start with `token_with` and
its end with `token`. -/
theorem C82_lookup_differs : ∃ (ops : List (Op Nat)) (t t' : Tree Nat), (∀ op ∈ ops, op.cursorDriven = true) ∧
    (Sys.init.run Flavor.default ops).1.b.build = .ok t ∧
    (Sys.init.run Flavor.default (spelled Flavor.default Sys.init [] ops)).1.b.build = .ok t' ∧
    t.nodeWithRange Flavor.default binarySearch 0 3 = .some 0 ∧
    t'.nodeWithRange Flavor.default binarySearch 0 3 = .some 1 :=
  ⟨[.token 1 3, .token 2 4], _, _, by decide, rfl, rfl, by decide, by decide⟩

end Syntree
