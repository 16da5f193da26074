import Verif.Model.Builder
import Verif.Spec.Forest

/-!
# Specification of the builder: a machine on nested lists

`Nest` is what a user has in mind while calling a builder: the nested list built so far, the stack
of open nodes, a cursor, and for every checkpoint taken the place it marks. There are no links and
no shared cells. `Nest.step` says what each call does and returns; it is `none` for the one use of
a checkpoint that the specification leaves open: a checkpoint into a stretch of siblings that has
in the meantime been wrapped by an earlier checkpoint of the same level.
-/

namespace Syntree

variable {α : Type}

/-- What a checkpoint marks: a position `pos` in the list of children of `frame` (the node being
built when the checkpoint was taken; `none` is the root level). It is not `live` once an earlier
position of the same level has been used to wrap what follows it. -/
structure Mark where
  frame : Option Nat
  pos : Nat
  live : Bool
  deriving DecidableEq, Repr

/-- The state of the specification. -/
structure Nest (α : Type) where
  /-- the children, so far, of the innermost open node (or the roots) -/
  cur : Forest (Lab α)
  /-- the open nodes, innermost first, each with the siblings before it -/
  stack : List (Lab α × Forest (Lab α))
  cursor : Nat
  /-- number of nodes made so far -/
  count : Nat
  /-- end of the span of the whole tree -/
  stop : Nat
  /-- the checkpoints handed out so far -/
  marks : List Mark
  deriving DecidableEq, Repr

namespace Nest

def init : Nest α := ⟨.nil, [], 0, 0, 0, []⟩

/-- The node being built. -/
def frame (n : Nest α) : Option Nat := n.stack.head?.map (·.1.id)

/-- Is there no pointer of `fl.width` bits left? -/
def full (fl : Flavor) (n : Nest α) : Bool := decide (2 ^ fl.width - 1 ≤ n.count)

/-- The end of the span of the innermost open node becomes `stop`. -/
def endParent (stop : Nat) :
    List (Lab α × Forest (Lab α)) → List (Lab α × Forest (Lab α))
  | [] => []
  | (x, l) :: st => ({ x with span := ⟨x.span.start, stop⟩ }, l) :: st

/-- The span of the innermost open node is extended to cover `sp`. -/
def growParent (sp : Span) :
    List (Lab α × Forest (Lab α)) → List (Lab α × Forest (Lab α))
  | [] => []
  | (x, l) :: st => ({ x with span := x.span.join sp }, l) :: st

/-- Append a childless node. -/
def addLeaf (n : Nest α) (data : α) (span : Span) : Nest α :=
  { n with
    cur := n.cur ++ Forest.leaf ⟨n.count, data, span⟩
    stack := endParent span.stop n.stack
    count := n.count + 1 }

/-- Start a node. -/
def addOpen (n : Nest α) (data : α) (span : Span) : Nest α :=
  { n with
    cur := .nil
    stack := (⟨n.count, data, span⟩, n.cur) :: endParent span.stop n.stack
    count := n.count + 1 }

/-- The span covering a non-empty stretch of siblings: start of the first, end of the last. -/
def stretch (F : Forest (Lab α)) : Span :=
  ⟨(F.head?.map (·.span.start)).getD 0, (F.last?.map (·.span.stop)).getD 0⟩

/-- Wrap the children from position `p` on into a new node. -/
def wrap (n : Nest α) (p : Nat) (data : α) (explicit : Option Span) : Nest α :=
  if (n.cur.drop p).isNil then n.addLeaf data (explicit.getD (Span.point n.cursor))
  else
    { n with
      cur := n.cur.take p ++
        Forest.single ⟨n.count, data, explicit.getD (stretch (n.cur.drop p))⟩ (n.cur.drop p)
      count := n.count + 1
      marks := n.marks.map fun m =>
        if m.frame = n.frame ∧ p < m.pos then { m with live := false } else m }

def openWith (fl : Flavor) (n : Nest α) (d : α) (sp : Span) : Nest α × Except Err Out :=
  if n.full fl then (n, .error .overflow) else (n.addOpen d sp, .ok (.id n.count))

def closeAt (fl : Flavor) (n : Nest α) (k : Nat) (d : α) (explicit : Option Span) :
    Option (Nest α × Except Err Out) :=
  match n.marks[k]? with
  | none => some (n, .ok .unit)
  | some m =>
    if m.frame ≠ n.frame then some (n, .error .closeAtError)
    else if n.full fl then some (n, .error .overflow)
    else if ! m.live then none
    else some (n.wrap m.pos d explicit, .ok (.id n.count))

def token (fl : Flavor) (n : Nest α) (d : α) (len : Nat) : Nest α × Except Err Out :=
  if fl.ik.lenIsEmpty len then
    if n.full fl then (n, .error .overflow)
    else (n.addLeaf d (Span.point n.cursor), .ok (.id n.count))
  else
    match fl.ik.checkedAddLen n.cursor len with
    | none => (n, .error .overflow)
    | some c =>
      let n' := { n with cursor := c, stop := c }
      if n.full fl then (n', .error .overflow)
      else (n'.addLeaf d ⟨n.cursor, c⟩, .ok (.id n.count))

/-- One call. -/
def step (fl : Flavor) (n : Nest α) : Op α → Option (Nest α × Except Err Out)
  | .open d => some (n.openWith fl d (Span.point n.cursor))
  | .openWith d sp => some (n.openWith fl d sp)
  | .close => some <|
    match n.stack with
    | [] => (n, .error .closeError)
    | (x, left) :: st =>
      ({ n with
          cur := left ++ Forest.single x n.cur
          stack := growParent x.span st
          cursor := x.span.stop }, .ok .unit)
  | .token d len => some (n.token fl d len)
  | .tokenEmpty d => some (n.token fl d 0)
  | .tokenWith d sp => some <|
    if n.full fl then (n, .error .overflow)
    else
      let n' := n.addLeaf d sp
      ({ n' with stack := growParent sp n'.stack, cursor := sp.stop }, .ok (.id n.count))
  | .checkpoint => some <|
    if n.full fl then (n, .error .overflow)
    else ({ n with marks := n.marks ++ [⟨n.frame, n.cur.width, true⟩] },
      .ok (.handle n.marks.length))
  | .closeAt k d => n.closeAt fl k d none
  | .closeAtWith k d sp => n.closeAt fl k d (some sp)
  | .setCursor i => some ({ n with cursor := i }, .ok .unit)

/-- A whole history, with the results of its calls. -/
def run (fl : Flavor) : Nest α → List (Op α) → Option (Nest α × List (Except Err Out))
  | n, [] => some (n, [])
  | n, op :: ops =>
    match n.step fl op with
    | none => none
    | some (n, o) =>
      match run fl n ops with
      | none => none
      | some (n, os) => some (n, o :: os)

/-- The nested list that has been built, if no node is open. -/
def built (n : Nest α) : Except Err (Forest (Lab α)) :=
  if n.stack.isEmpty then .ok n.cur else .error .buildError

/-- A `close_at` call is gentle if it wraps nothing, or a single node below the root level. Other
calls are always gentle. (Only after such histories is the stored last child always up to date.) -/
def Gentle (n : Nest α) : Op α → Prop
  | .closeAt k _ | .closeAtWith k _ _ => ∀ m, n.marks[k]? = some m →
      n.cur.drop m.pos = .nil ∨ (∃ x, (n.cur.drop m.pos).tops = [x]) ∧ n.stack ≠ []
  | _ => True

/-- Every `close_at` of the history is gentle. -/
def GentleRun (fl : Flavor) : Nest α → List (Op α) → Prop
  | _, [] => True
  | n, op :: ops => n.Gentle op ∧ ∀ n' o, n.step fl op = some (n', o) → GentleRun fl n' ops

end Nest

end Syntree
