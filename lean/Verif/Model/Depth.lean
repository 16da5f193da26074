import Verif.Model.Print

/-!
# Depths as machine integers

`Model/Node.lean` and `Model/Print.lean` count depths with unbounded integers. Here they are
`isize`s: `m` is `-isize::MIN`, so that an `isize` is an integer from `-m` to `m - 1`.
-/

namespace Syntree

variable {α : Type}

/-- An integer is a value of `isize`. -/
def InIsize (m : Nat) (d : Int) : Prop := -(m : Int) ≤ d ∧ d < m

instance (m : Nat) (d : Int) : Decidable (InIsize m d) := by unfold InIsize; infer_instance

/-- `isize::checked_add` and `isize::checked_sub`, of the exact result. -/
def checkedIsize (m : Nat) (d : Int) : Option Int := if InIsize m d then some d else none

/-- `src/node/walk_events.rs:177-199` — `WalkEvents::step`: the new depth and the next node. When a
`?` returns early after a failed addition, `self.depth` has not been assigned. -/
def WalkEvents.stepIn (m : Nat) (depth : Int) (links : Links α) (event : Event) :
    Int × Option (Nat × Event) :=
  let ascend : Int × Option (Nat × Event) :=
    match checkedIsize m (depth - 1) with
    | none => (depth, none)
    | some depth =>
      match links.parent with
      | none => (depth, none)
      | some p => (depth, some (p, .up))
  match event with
  | .up =>
    match links.next with
    | some next => (depth, some (next, .next))
    | none => ascend
  | _ =>
    match links.first with
    | some first =>
      match checkedIsize m (depth + 1) with
      | none => (depth, none)
      | some depth => (depth, some (first, .down))
    | none =>
      match links.next with
      | some next => (depth, some (next, .next))
      | none => ascend

/-- `src/node/walk_events.rs:239-245` — `WalkEvents::next`. -/
def WalkEvents.nextIn (m : Nat) (nodes : Slice α) : NextFn WalkEvents (Event × Nat) := fun w =>
  match w.node with
  | none => (w, .none)
  | some (node, event) =>
    match nodes[node]? with
    | none => ({ w with node := none }, .none)
    | some links =>
      let r := WalkEvents.stepIn m w.depth links event
      (⟨r.2, r.1⟩, .some (event, node))

/-- `src/node/walk.rs:259-267` — `Walk::next`. -/
def Walk.loopIn (m : Nat) (nodes : Slice α) : Nat → NextFn WalkEvents Nat
  | 0, w => (w, .diverge)
  | fuel + 1, w =>
    match WalkEvents.nextIn m nodes w with
    | (w, .none) => (w, .none)
    | (w, .diverge) => (w, .diverge)
    | (w, .some (event, node)) =>
      if event ≠ .up then (w, .some node) else Walk.loopIn m nodes fuel w

def Walk.nextIn (m : Nat) (nodes : Slice α) : NextFn WalkEvents Nat :=
  Walk.loopIn m nodes (nodes.length + 1)

/-- `src/node/walk.rs:340-349` — `WithDepths::next`, and `src/node/walk.rs:213-222` —
`Walk::next_with_depth`. -/
def WithDepths.loopIn (m : Nat) (nodes : Slice α) : Nat → NextFn WalkEvents (Int × Nat)
  | 0, w => (w, .diverge)
  | fuel + 1, w =>
    let depth := w.depth
    match WalkEvents.nextIn m nodes w with
    | (w, .none) => (w, .none)
    | (w, .diverge) => (w, .diverge)
    | (w, .some (event, node)) =>
      if event ≠ .up then (w, .some (depth, node)) else WithDepths.loopIn m nodes fuel w

def WithDepths.nextIn (m : Nat) (nodes : Slice α) : NextFn WalkEvents (Int × Nat) :=
  WithDepths.loopIn m nodes (nodes.length + 1)

/-- `src/node/walk.rs:436-448` — `Inside::next`. -/
def Inside.loopIn (m : Nat) (nodes : Slice α) : Nat → NextFn WalkEvents Nat
  | 0, w => (w, .diverge)
  | fuel + 1, w =>
    match WalkEvents.nextIn m nodes w with
    | (w, .none) => (w, .none)
    | (w, .diverge) => (w, .diverge)
    | (w, .some (event, node)) =>
      let w := if w.depth ≤ 0 then WalkEvents.default else w
      if event ≠ .up then (w, .some node) else Inside.loopIn m nodes fuel w

def Inside.nextIn (m : Nat) (nodes : Slice α) : NextFn WalkEvents Nat :=
  Inside.loopIn m nodes (nodes.length + 1)

/-- `src/print.rs:143` — `(depth * 2) as usize` without overflow checks: the product wraps, and the
cast keeps the bits. -/
def indentIn (m : Nat) (depth : Int) : Nat := ((depth * 2) % (2 * (m : Int))).toNat

/-- `src/print.rs:142-154` — the body of the loop, as `printLine`, with the indentation computed on
machine integers. -/
def printLineIn (m : Nat) (showIndex : Nat → String) (debugData : α → String)
    (debugStr : String → String) (source : Span → Option String) (nodes : Slice α)
    (item : Int × Nat) : String :=
  match nodes[item.2]? with
  | none => ""
  | some l =>
    let n := indentIn m item.1
    let head := blanks n ++ debugData l.data ++ "@" ++ l.span.display showIndex
    if l.first.isSome then head ++ "\n"
    else match source l.span with
      | some s => head ++ " " ++ debugStr s ++ "\n"
      | none => head ++ " +" ++ "\n"

/-- `src/print.rs:132-157` — `print_with_lookup`. -/
def Tree.printWithLookupIn (m : Nat) (showIndex : Nat → String) (debugData : α → String)
    (debugStr : String → String) (source : Span → Option String) (t : Tree α) :
    Option (List String) :=
  forLoop (WithDepths.nextIn m t.nodes)
    (printLineIn m showIndex debugData debugStr source t.nodes) (t.nodes.length + 1) t.walk

end Syntree
