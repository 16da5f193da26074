import Verif.Model.Node

/-!
# Model of `src/print.rs`
-/

namespace Syntree

variable {α : Type}

/-- `{:n$}` applied to `""`: `n` blanks. -/
def blanks (n : Nat) : String := String.ofList (List.replicate n ' ')

/-- `src/span.rs:167-175` — `Display for Span`. `Display` of the index type is the parameter
`showIndex`. -/
def Span.display (showIndex : Nat → String) (s : Span) : String :=
  showIndex s.start ++ ".." ++ showIndex s.stop

/-- `src/print.rs:142-154` — the body of the loop: the line written for one node. `debugData` and
`debugStr` are `{:?}` of the data and of a source excerpt. Writing to `O` is assumed to succeed (see
`Model/Writing.lean` for writers that fail). -/
def printLine (showIndex : Nat → String) (debugData : α → String) (debugStr : String → String)
    (source : Span → Option String) (nodes : Slice α) (item : Int × Nat) : String :=
  match nodes[item.2]? with
  | none => ""
  | some l =>
    let n := (item.1 * 2).toNat
    let head := blanks n ++ debugData l.data ++ "@" ++ l.span.display showIndex
    if l.first.isSome then head ++ "\n"
    else match source l.span with
      | some s => head ++ " " ++ debugStr s ++ "\n"
      | none => head ++ " +" ++ "\n"

/-- `src/print.rs:132-157` — `print_with_lookup`: the lines written. `none` is divergence. -/
def Tree.printWithLookup (showIndex : Nat → String) (debugData : α → String)
    (debugStr : String → String) (source : Span → Option String) (t : Tree α) :
    Option (List String) :=
  forLoop (WithDepths.next t.nodes) (printLine showIndex debugData debugStr source t.nodes)
    (t.nodes.length + 1) t.walk

/-- `src/print.rs:64-71` — `print`. -/
def Tree.print (showIndex : Nat → String) (debugData : α → String) (debugStr : String → String)
    (t : Tree α) : Option (List String) :=
  t.printWithLookup showIndex debugData debugStr (fun _ => none)

/-- `src/print.rs:123-130` — `print_with_source`. `sourceGet` is `str::get(range)` of the standard
library applied to the source. -/
def Tree.printWithSource (ik : IndexKind) (showIndex : Nat → String) (debugData : α → String)
    (debugStr : String → String) (sourceGet : Nat × Nat → Option String) (t : Tree α) :
    Option (List String) :=
  t.printWithLookup showIndex debugData debugStr (fun span => sourceGet (span.range ik))

end Syntree
