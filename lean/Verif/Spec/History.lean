import Verif.Spec.Built

/-! # Vocabulary about call histories -/

namespace Syntree

variable {α : Type}

/-- The value passed to a call that creates a node. -/
def Op.data : Op α → Option α
  | .open d | .openWith d _ | .token d _ | .tokenEmpty d | .tokenWith d _
  | .closeAt _ d | .closeAtWith _ d _ => some d
  | .close | .checkpoint | .setCursor _ => none

/-- The id a call returned, if it returned one. -/
def idOf : Except Err Out → Option Nat
  | .ok (.id i) => some i
  | _ => none

/-- The calls of a history that created a node, in order; `os` are the results of the calls. -/
def made (ops : List (Op α)) (os : List (Except Err Out)) : List (Op α) :=
  (ops.zip os).filterMap fun p => if (idOf p.2).isSome then some p.1 else none

/-- Does the call add a token? -/
def Op.isToken : Op α → Bool
  | .token _ _ | .tokenEmpty _ | .tokenWith _ _ => true
  | _ => false

/-- The length a call adds to the text: the length of a token, nothing for the other calls. -/
def Op.len (fl : Flavor) : Op α → Nat
  | .token _ len => if fl.ik.lenIsEmpty len then 0 else len
  | _ => 0

/-- The span of a token that is added while the cursor is at `c`. -/
def Op.tokenSpan (fl : Flavor) (c : Nat) : Op α → Span
  | .tokenWith _ sp => sp
  | op => ⟨c, c + op.len fl⟩

/-- The calls that place nodes by the cursor only. -/
def Op.cursorDriven : Op α → Bool
  | .open _ | .close | .token _ _ | .tokenEmpty _ | .checkpoint | .closeAt _ _ => true
  | .openWith _ _ | .tokenWith _ _ | .closeAtWith _ _ _ | .setCursor _ => false

/-- Only calls that place nodes by the cursor, and none of them fails (on a new builder). -/
def Clean (fl : Flavor) (ops : List (Op α)) : Prop :=
  (∀ op ∈ ops, op.cursorDriven = true) ∧ ∀ o ∈ (Sys.init.run fl ops).2, ∃ v, o = .ok v

/-- No call of the history ran out of pointers: there are still pointers left at the end, or no
call at all reported `Overflow`. (`count` is the number of nodes made.) -/
def Spare (fl : Flavor) (count : Nat) (os : List (Except Err Out)) : Prop :=
  count < 2 ^ fl.width - 1 ∨ ∀ o ∈ os, o ≠ .error .overflow

/-- A nested list with a hole: from the innermost level outwards, what is before the hole, the node
it is in, and what is after that node. -/
abbrev Ctx (β : Type) := List (Forest β × β × Forest β)

/-- Fill the hole with a list of children. -/
def Ctx.plug {β : Type} : Ctx β → Forest β → Forest β
  | [], K => K
  | (left, x, right) :: c, K => Ctx.plug c (left ++ .cons x K right)

/-- Does the call use a checkpoint? -/
def Op.isCloseAt : Op α → Bool
  | .closeAt _ _ | .closeAtWith _ _ _ => true
  | _ => false

/-- `UsesAt op k d e`: the call `op` is `close_at(k, d)` (with `e = none`) or
`close_at_with(k, d, sp)` (with `e = some sp`). -/
inductive UsesAt : Op α → Nat → α → Option Span → Prop where
  | closeAt (k : Nat) (d : α) : UsesAt (.closeAt k d) k d none
  | closeAtWith (k : Nat) (d : α) (sp : Span) : UsesAt (.closeAtWith k d sp) k d (some sp)

/-- The same call with checkpoint `k` instead of `k'` or the other way round, or the same call. -/
inductive SameButFor (k k' : Nat) : Op α → Op α → Prop where
  | same (op : Op α) : SameButFor k k' op op
  | swap (d : α) : SameButFor k k' (.closeAt k d) (.closeAt k' d)
  | swap' (d : α) : SameButFor k k' (.closeAt k' d) (.closeAt k d)
  | swapWith (d : α) (sp : Span) : SameButFor k k' (.closeAtWith k d sp) (.closeAtWith k' d sp)
  | swapWith' (d : α) (sp : Span) : SameButFor k k' (.closeAtWith k' d sp) (.closeAtWith k d sp)

/-- Two histories that are the same call by call, but for exchanging the two checkpoints. -/
inductive SameButForAll (k k' : Nat) : List (Op α) → List (Op α) → Prop where
  | nil : SameButForAll k k' [] []
  | cons {op op' : Op α} {ops ops' : List (Op α)} : SameButFor k k' op op' →
      SameButForAll k k' ops ops' → SameButForAll k k' (op :: ops) (op' :: ops')

/-- What one call does to the list of nodes being built (innermost first), judged by its result:
a successful `open` starts a node, a successful `close` ends the innermost one. -/
def openAfter (st : List Nat) : Op α → Except Err Out → List Nat
  | .open _, .ok (.id i) | .openWith _ _, .ok (.id i) => i :: st
  | .close, .ok _ => st.tail
  | _, _ => st

/-- The nodes being built after a history with its results, innermost first. -/
def openIds (st : List Nat) : List (Op α) → List (Except Err Out) → List Nat
  | op :: ops, o :: os => openIds (openAfter st op o) ops os
  | _, _ => st

/-- The node being built after a history on a new builder, judged by the results of the calls. -/
def building (fl : Flavor) (ops : List (Op α)) : Option Nat :=
  (openIds [] ops (Sys.init.run fl ops).2).head?

end Syntree
