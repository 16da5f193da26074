import Verif.Spec.Spans

/-!
# Where the span of a node comes from

The rule by which the span of every node can be worked out from the calls that were made, for all
calls, explicit spans in any order included.
-/

namespace Syntree

variable {α : Type}

/-- The span a call that creates a node starts from, `c` being what `cursor()` is before the call:
the explicit span if it has one; from the cursor on, as long as the token is. -/
def Op.bornSpan (fl : Flavor) (c : Nat) : Op α → Span
  | .openWith _ s | .tokenWith _ s | .closeAtWith _ _ s => s
  | op => ⟨c, c + op.len fl⟩

/-- The spans the nodes of a history start from, in the order of the ids they got. The calls `pre`
have been made before. -/
def bornFrom (fl : Flavor) (pre : List (Op α)) : List (Op α) → List Span
  | [] => []
  | op :: ops =>
    let s := (Sys.init.run fl pre).1
    (if (idOf (s.step fl op).2).isSome then [op.bornSpan fl s.b.cursor] else []) ++
      bornFrom fl (pre ++ [op]) ops

/-- The spans the nodes of a history on a new builder start from. -/
def bornSpans (fl : Flavor) (ops : List (Op α)) : List Span := bornFrom fl [] ops

/-- Does the call open a node? -/
def Op.isOpen : Op α → Bool
  | .open _ | .openWith _ _ => true
  | _ => false

/-- Does a node made by the call move the start of the span of the node it is in? -/
def Op.movesStart : Op α → Bool
  | .open _ | .openWith _ _ | .tokenWith _ _ => true
  | _ => false

/-- Was the node made by `close_at` or `close_at_with`, around other nodes? -/
def wraps (calls : List (Op α)) (x : Lab α) (kids : Forest (Lab α)) : Bool :=
  !kids.isNil && ((calls[x.id]?).map Op.isCloseAt).getD false

/-- The nodes of a level as they were added: what `close_at` has put into a wrapper since is taken
out again. -/
def Forest.unwrapped (calls : List (Op α)) : Forest (Lab α) → List (Lab α)
  | .nil => []
  | .cons x k r => (if wraps calls x k then unwrapped calls k else [x]) ++ unwrapped calls r

/-- What a child `y` does to the span of the node it is added to.
A token placed by the cursor (or a `close_at` around nothing) sets the end. A token with an explicit
span sets the end and moves the start back if it starts earlier. So does a node that is opened and
closed, but the end becomes the later one of its own end and of the end it was opened with. -/
def growBy (calls : List (Op α)) (born : List Span) (sp : Span) (y : Lab α) : Span :=
  match calls[y.id]? with
  | some (.tokenWith _ _) => ⟨min sp.start y.span.start, y.span.stop⟩
  | some (.open _) | some (.openWith _ _) =>
    ⟨min sp.start y.span.start, max ((born[y.id]?.map (·.stop)).getD 0) y.span.stop⟩
  | _ => ⟨sp.start, y.span.stop⟩

/-- The span of the node `x` with the children `kids`. A wrapper has its explicit span, or reaches
from the start of the first to the end of the last of its children. Any other node starts from the
span it is born with, which every child it is given changes. -/
def spanRule (calls : List (Op α)) (born : List Span) (x : Lab α) (kids : Forest (Lab α)) : Span :=
  if wraps calls x kids then
    match calls[x.id]? with
    | some (.closeAtWith _ _ s) => s
    | _ => ⟨(kids.tops.head?.map (·.span.start)).getD 0, (kids.tops.getLast?.map (·.span.stop)).getD 0⟩
  else (kids.unwrapped calls).foldl (growBy calls born) ((born[x.id]?).getD ⟨0, 0⟩)

end Syntree
