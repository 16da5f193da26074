import Verif.Spec.Spans

/-! # Vocabulary about range queries -/

namespace Syntree

variable {α : Type}

/-- The documented contract of `slice::binary_search_by(|f| f.index.cmp(&k))` on a slice whose
indexes are strictly increasing: `Ok` is a position where the key is, `Err` the position where it
can be inserted. -/
def SearchSpec (search : List TreeIndex → Nat → Search) : Prop :=
  ∀ (L : List TreeIndex) (k : Nat), (L.map (·.index)).Pairwise (· < ·) →
    match search L k with
    | .ok n => ∃ x, L[n]? = some x ∧ x.index = k
    | .err n => n ≤ L.length ∧ (∀ x ∈ L.take n, x.index < k) ∧ (∀ x ∈ L.drop n, k < x.index)

/-- The node that a query reaching to `stop` returns, for a token with the proper ancestors `anc`
(closest first): the closest of them that does not end before `stop`; if there is none, the
outermost one, or the token itself if it is a root. -/
def enclosing (t : Tree α) (stop token : Nat) (anc : List Nat) : Nat :=
  match anc.find? (fun p => (nodeSpan t.nodes p).any (fun sp => stop ≤ sp.stop)) with
  | some p => p
  | none => (anc.getLast?).getD token

end Syntree
