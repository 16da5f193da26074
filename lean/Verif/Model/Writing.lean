import Verif.Model.Print

/-!
# `print` to a writer that may fail

`Model/Print.lean` gives the lines that `print` writes. Here they are written to an `O: Write`: a
state of any type `ω` and a function `write` for `io::Write::write_all`, which may change the state
and fail at any call. Two things end the printing early: the first error of the writer, which `?`
returns, and a width that `core::fmt` does not accept.
-/

namespace Syntree

variable {α ω ε : Type}

/-- How a call ends that returns a `Result<(), E>`: it returns, it panics, or it does not end. -/
inductive Finish (ε : Type) where
  | ok
  | err (e : ε)
  | panic
  | diverge
  deriving DecidableEq

/-- `io::Write::write_fmt` (of the standard library): the pieces of a formatted text are written one
after the other with `write_all`; the first error is returned. -/
def writePieces (write : ω → String → ω × Except ε Unit) : ω → List String → ω × Except ε Unit
  | o, [] => (o, .ok ())
  | o, s :: rest =>
    match write o s with
    | (o, .error e) => (o, .error e)
    | (o, .ok _) => writePieces write o rest

/-- `src/print.rs:142-154` — the loop of `print_with_lookup`. `line` is the line of a node
(`printLine`), `cut node` the pieces in which `core::fmt` hands it on. `limit` is the largest width
that `core::fmt` accepts (`u16::MAX` in recent versions, `usize::MAX` in older ones): for a larger
one, putting together the arguments of `writeln!` panics, before anything of the line is written. A
negative depth, which would become a width above `isize::MAX` by the cast of line 143, panics here
also in the older versions; no tree leads to one (C75). -/
def printLoop (limit : Nat) (cut : Nat → String → List String)
    (write : ω → String → ω × Except ε Unit) (nodes : Slice α) (line : Int × Nat → String) :
    Nat → ω → WalkEvents → ω × Finish ε
  | 0, o, _ => (o, .diverge)
  | fuel + 1, o, w =>
    match WithDepths.next nodes w with
    | (_, .diverge) => (o, .diverge)
    | (_, .none) => (o, .ok)
    | (w, .some item) =>
      if item.1 < 0 ∨ (limit : Int) < item.1 * 2 then (o, .panic)
      else match writePieces write o (cut item.2 (line item)) with
        | (o, .error e) => (o, .err e)
        | (o, .ok _) => printLoop limit cut write nodes line fuel o w

/-- `src/print.rs:132-157` — `print_with_lookup` with the writer. -/
def Tree.printTo (limit : Nat) (cut : Nat → String → List String)
    (write : ω → String → ω × Except ε Unit) (showIndex : Nat → String) (debugData : α → String)
    (debugStr : String → String) (source : Span → Option String) (t : Tree α) (o : ω) :
    ω × Finish ε :=
  printLoop limit cut write t.nodes (printLine showIndex debugData debugStr source t.nodes)
    (t.nodes.length + 1) o t.walk

/-- `impl Write for Vec<u8>` (of the standard library): appends, and never fails. -/
def vecWrite (o : List UInt8) (s : String) : List UInt8 × Except ε Unit :=
  (o ++ s.toByteArray.data.toList, .ok ())

/-- A writer into a buffer of fixed size: the bytes written, and how many fit. -/
structure Buffer where
  held : List UInt8
  room : Nat
  deriving DecidableEq

/-- `impl Write for &mut [u8]` (of the standard library): writes what fits, and fails (`WriteZero`)
if that is not everything. -/
def bufferWrite (o : Buffer) (s : String) : Buffer × Except Unit Unit :=
  let b := s.toByteArray.data.toList
  (⟨o.held ++ b.take o.room, o.room - b.length⟩, if b.length ≤ o.room then .ok () else .error ())

end Syntree
