import Verif.Model.Macro
import Verif.Spec.Built

/-! # What a literal stands for -/

namespace Syntree

variable {α : Type}

namespace Lit

/-- The literal gives no explicit spans. -/
def plain : Lit α → Bool
  | .nil => true
  | .node _ k r => k.plain && r.plain
  | .token _ _ r | .tokenEmpty _ r => r.plain
  | .nodeWith .. | .tokenWith .. => false

/-- Number of items, at all levels. -/
def count : Lit α → Nat
  | .nil => 0
  | .node _ k r | .nodeWith _ _ k r => 1 + k.count + r.count
  | .token _ _ r | .tokenEmpty _ r | .tokenWith _ _ r => 1 + r.count

/-- The nested list of values that is written. -/
def values : Lit α → Forest α
  | .nil => .nil
  | .node d k r | .nodeWith d _ k r => .cons d k.values r.values
  | .token d _ r | .tokenEmpty d r | .tokenWith d _ r => .cons d .nil r.values

/-- What a token of length `n` adds to the text; with the `Empty` index every length is zero. -/
def tokenLen : IndexKind → Nat → Nat
  | .bits _, n => n
  | .empty, _ => 0

/-- Total length of the text of a plain literal. -/
def len (ik : IndexKind) : Lit α → Nat
  | .nil => 0
  | .node _ k r | .nodeWith _ _ k r => k.len ik + r.len ik
  | .token _ n r => tokenLen ik n + r.len ik
  | .tokenEmpty _ r | .tokenWith _ _ r => r.len ik

/-- The nodes of a plain literal, numbered in document order from `i`, with the tokens laid end to
end from `pos`. -/
def layout (ik : IndexKind) (pos i : Nat) : Lit α → Forest (Lab α)
  | .nil => .nil
  | .node d k r | .nodeWith d _ k r =>
    .cons ⟨i, d, ⟨pos, pos + k.len ik⟩⟩ (k.layout ik pos (i + 1))
      (r.layout ik (pos + k.len ik) (i + 1 + k.count))
  | .token d n r =>
    .cons ⟨i, d, ⟨pos, pos + tokenLen ik n⟩⟩ .nil (r.layout ik (pos + tokenLen ik n) (i + 1))
  | .tokenEmpty d r | .tokenWith d _ r =>
    .cons ⟨i, d, ⟨pos, pos⟩⟩ .nil (r.layout ik pos (i + 1))

/-- Is a text of length `n` addressable? -/
def Addressable : IndexKind → Nat → Prop
  | .bits w, n => n < 2 ^ w
  | .empty, _ => True

/-- The literal fits the flavor: no more items than there are pointers, and its text is
addressable. -/
def Fits (fl : Flavor) (lit : Lit α) : Prop :=
  lit.count ≤ 2 ^ fl.width - 1 ∧ Addressable fl.ik (lit.len fl.ik)

end Lit

end Syntree

/-- The literal a client would write for a nested list of nodes: childless nodes as tokens with the
length of their span. -/
def Syntree.Forest.literal {α : Type} : Syntree.Forest (Syntree.Lab α) → Syntree.Lit α
  | .nil => .nil
  | .cons x .nil r => .token x.data (x.span.stop - x.span.start) r.literal
  | .cons x k r => .node x.data k.literal r.literal
