import Verif.Spec.History

/-! # Vocabulary about spans and source text -/

namespace Syntree

variable {α : Type}

/-- The total length of the tokens among the given calls. -/
def textLen (fl : Flavor) (calls : List (Op α)) : Nat := (calls.map (Op.len fl)).sum

/-- The part of a source text a range stands for. -/
def sliceOf {β : Type} (source : List β) (r : Nat × Nat) : List β :=
  (source.drop r.1).take (r.2 - r.1)

/-- The source text of node `i`: `source[node.range()]`. -/
def nodeText {β : Type} (fl : Flavor) (source : List β) (t : Tree α) (i : Nat) : List β :=
  match nodeRange fl.ik t.nodes i with
  | none => []
  | some r => sliceOf source r

/-- Is the next call in order, when the cursor is at `c`? Explicit spans move forward, an opened
span starts at the cursor, `set_cursor` does not go back, and `close_at_with` is not used. -/
def OkCall (c : Nat) : Op α → Prop
  | .openWith _ s => s.start = c ∧ s.start ≤ s.stop
  | .tokenWith _ s => c ≤ s.start ∧ s.start ≤ s.stop
  | .closeAtWith _ _ _ => False
  | .setCursor i => c ≤ i
  | _ => True

/-- Every call of the history is in order with respect to what `cursor()` is just before it. -/
def InOrder (fl : Flavor) (ops : List (Op α)) : Prop :=
  ∀ pre op post, ops = pre ++ op :: post → OkCall (Sys.init.run fl pre).1.b.cursor op

end Syntree
