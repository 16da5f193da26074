import Verif.Model.Print

/-!
# Model of the `Debug` impls of `Tree`, `Node` and `Span`

`core::fmt` is not part of `/repo`: `Doc` records which of the builders `debug_struct`, `debug_tuple`
and `debug_list` are called with what, and `Doc.plain` and `Doc.pretty` are what they write for `{:?}`
and for `{:#?}`.
-/

namespace Syntree

variable {α : Type}

/-- What a `Debug` impl asks the formatter to write: a text (the output of the `Debug` impl of the
data, of an index or of a number), a named tuple with two or with one field, a list, or a struct with
two named fields. (Only those shapes occur.) -/
inductive Doc where
  | text (s : String)
  | tuple1 (name : String) (x : Doc)
  | tuple2 (name : String) (x y : Doc)
  | list (l : List Doc)
  | struct2 (name f1 : String) (x : Doc) (f2 : String) (y : Doc)

mutual
/-- What `core::fmt` writes for `{:?}`. -/
def Doc.plain : Doc → String
  | .text s => s
  | .tuple1 name x => name ++ "(" ++ x.plain ++ ")"
  | .tuple2 name x y => name ++ "(" ++ x.plain ++ ", " ++ y.plain ++ ")"
  | .list [] => "[]"
  | .list (x :: l) => "[" ++ x.plain ++ Doc.plainRest l ++ "]"
  | .struct2 name f1 x f2 y =>
    name ++ " { " ++ f1 ++ ": " ++ x.plain ++ ", " ++ f2 ++ ": " ++ y.plain ++ " }"
/-- The elements of a list after the first one. -/
def Doc.plainRest : List Doc → String
  | [] => ""
  | x :: l => ", " ++ x.plain ++ Doc.plainRest l
end

/-- `core::fmt::builders::PadAdapter`: four blanks at the start of every line. -/
def padLines : Bool → List Char → List Char
  | _, [] => []
  | newline, c :: s =>
    (if newline then [' ', ' ', ' ', ' ', c] else [c]) ++ padLines (c == '\n') s

/-- A field or an element on lines of its own. -/
def padded (s : String) : String := String.ofList (padLines true (s ++ ",\n").toList)

mutual
/-- What `core::fmt` writes for `{:#?}`. -/
def Doc.pretty : Doc → String
  | .text s => s
  | .tuple1 name x => name ++ "(\n" ++ padded x.pretty ++ ")"
  | .tuple2 name x y => name ++ "(\n" ++ padded x.pretty ++ padded y.pretty ++ ")"
  | .list [] => "[]"
  | .list (x :: l) => "[\n" ++ padded x.pretty ++ Doc.prettyRest l ++ "]"
  | .struct2 name f1 x f2 y =>
    name ++ " {\n" ++ padded (f1 ++ ": " ++ x.pretty) ++ padded (f2 ++ ": " ++ y.pretty) ++ "}"
/-- The elements of a list after the first one. -/
def Doc.prettyRest : List Doc → String
  | [] => ""
  | x :: l => padded x.pretty ++ Doc.prettyRest l
end

/-- `src/span.rs:177-185` — `Debug for Span`: the pair of start and end. `showIndex` is `Debug` of
the index type. -/
def Span.debug (showIndex : Nat → String) (s : Span) : Doc :=
  .tuple2 "" (.text (showIndex s.start)) (.text (showIndex s.stop))

/-- `src/node/node_impl.rs:559-570` — `Debug for Node`. -/
def Links.debug (showIndex : Nat → String) (debugData : α → String) (l : Links α) : Doc :=
  .struct2 "Node" "data" (.text (debugData l.data)) "span" (l.span.debug showIndex)

/-- `src/tree.rs:624` — an entry of the list: the pair of depth and node. `showDepth` is `Debug` of
`isize`. -/
def debugEntry (showIndex : Nat → String) (showDepth : Int → String) (debugData : α → String)
    (nodes : Slice α) (item : Int × Nat) : Doc :=
  match nodes[item.2]? with
  | none => .text ""
  | some l => .tuple2 "" (.text (showDepth item.1)) (l.debug showIndex debugData)

/-- `src/tree.rs:607-630` — `Debug for Tree`. `none` is divergence. -/
def Tree.debug (showIndex : Nat → String) (showDepth : Int → String) (debugData : α → String)
    (t : Tree α) : Option Doc :=
  (forLoop (WithDepths.next t.nodes) (debugEntry showIndex showDepth debugData t.nodes)
    (t.nodes.length + 1) t.walk).map fun l => .tuple1 "Tree" (.list l)

/-- What `format!("{tree:?}")` returns. `debugData` is what `{:?}` writes for the data. -/
def Tree.debugText (showIndex : Nat → String) (showDepth : Int → String) (debugData : α → String)
    (t : Tree α) : Option String :=
  (t.debug showIndex showDepth debugData).map Doc.plain

/-- What `format!("{tree:#?}")` returns. `debugData` is what `{:#?}` writes for the data. -/
def Tree.prettyText (showIndex : Nat → String) (showDepth : Int → String) (debugData : α → String)
    (t : Tree α) : Option String :=
  (t.debug showIndex showDepth debugData).map Doc.pretty

end Syntree
