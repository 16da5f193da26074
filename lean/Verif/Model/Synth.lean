import Verif.Model.Math
import Verif.Model.Node

/-!
# Model of `examples/synthetic_strings.rs`: a third client of the library

A lexer that looks up names, a flat tree with data in the token kinds, and a loop over the roots.
Indexing a string outside of its characters panics in Rust; that is `Fail.panic` here.
-/

namespace Syntree.Synth

open Math (charIndices eat)

/-- `char::is_ascii_lowercase`. -/
def isLower (c : Char) : Bool := 0x61 ≤ c.toNat && c.toNat ≤ 0x7A

/-- `char::is_ascii_alphabetic`, and the pattern `'A'..='Z' | 'a'..='z'`. -/
def isAlpha (c : Char) : Bool := (0x41 ≤ c.toNat && c.toNat ≤ 0x5A) || isLower c

/-- `examples/synthetic_strings.rs:10-20` — `Syntax`. -/
inductive Syn where
  | synthetic (id : Nat)
  | literal
  | whitespace
  | error
  deriving DecidableEq, Repr

/-- `examples/synthetic_strings.rs:24-28` — `Storage`. The `HashMap` is the list of its insertions,
latest first: looking up a key finds the latest one. -/
structure Storage where
  lookup : List (Text × Nat)
  storage : List Text
  deriving DecidableEq, Repr

/-- `#[derive(Default)]` (`examples/synthetic_strings.rs:24`). -/
def Storage.empty : Storage := ⟨[], []⟩

/-- `examples/synthetic_strings.rs:32-37` — `Storage::insert`. -/
def Storage.insert (s : Storage) (name value : Text) : Storage :=
  ⟨(name, s.storage.length) :: s.lookup, s.storage ++ [value]⟩

/-- `examples/synthetic_strings.rs:40-42` — `Storage::lookup`. -/
def Storage.find (s : Storage) (name : Text) : Option Nat :=
  (s.lookup.find? (fun p => p.1 == name)).map (·.2)

/-- `examples/synthetic_strings.rs:44-46` — `Storage::get`. -/
def Storage.get (s : Storage) (id : Nat) : Option Text := s.storage[id]?

/-- How the program can fail: a builder error (`?` in `main`), or a panic. -/
inductive Fail where
  | builder (e : Err)
  | panic
  deriving DecidableEq, Repr

/-- `examples/synthetic_strings.rs:50-51` — what the closure of `lexer` owns. -/
structure Lexer where
  source : Text
  it : List (Nat × Char)
  len : Nat
  deriving DecidableEq, Repr

/-- `examples/synthetic_strings.rs:49-51` — `lexer`. -/
def Lexer.new (source : Text) : Lexer := ⟨source, charIndices 0 source, Text.bytes source⟩

/-- `it.peek().map_or(len, |(n, _)| *n)` (`examples/synthetic_strings.rs:63`, `81`). -/
def Lexer.stop (l : Lexer) (it : List (Nat × Char)) : Nat :=
  match it.head? with
  | none => l.len
  | some (n, _) => n

/-- `examples/synthetic_strings.rs:56-79` — the `match` of the lexer; `eat` is
`examples/synthetic_strings.rs:86-90`, which is the same code as in `examples/math.rs`. -/
def Lexer.scan (st : Storage) (l : Lexer) (start : Nat) (c : Char) (it : List (Nat × Char)) :
    Except Fail (List (Nat × Char) × Syn) :=
  if isWhitespace c then .ok (eat isWhitespace it, .whitespace)
  else if c = '$' then
    let it := eat isLower it
    match l.source.get (start + 1, l.stop it) with
    | none => .error .panic
    | some id =>
      match st.find id with
      | some id => .ok (it, .synthetic id)
      | none => .ok (it, .error)
  else if isAlpha c then .ok (eat isAlpha it, .literal)
  else .ok (eat (fun c => !isWhitespace c) it, .error)

/-- `examples/synthetic_strings.rs:53-83` — the closure of `lexer`. -/
def Lexer.next (st : Storage) (l : Lexer) : Except Fail (Lexer × Option (Syn × Nat)) :=
  match l.it with
  | [] => .ok (l, none)
  | (start, c) :: it =>
    match l.scan st start c it with
    | .error e => .error e
    | .ok (it, syn) => .ok ({ l with it := it }, some (syn, l.stop it - start))

/-- `examples/synthetic_strings.rs:103-105` — the loop over the tokens; the fuel is one round per
character and one to see that nothing is left. -/
def tokenLoop (fl : Flavor) (st : Storage) : Nat → Lexer → Sys Syn → Except Fail (Sys Syn)
  | 0, _, _ => .error (.builder .diverge)
  | fuel + 1, l, tree =>
    match l.next st with
    | .error e => .error e
    | .ok (_, none) => .ok tree
    | .ok (l, some (syn, len)) =>
      match tree.step fl (.token syn len) with
      | (_, .error e) => .error (.builder e)
      | (tree, .ok _) => tokenLoop fl st fuel l tree

/-- A line of the output. -/
inductive Line where
  | value (count : Nat) (string : Text)
  | notFound (count : Nat) (source : Text)
  | error (source : Text)
  deriving DecidableEq, Repr

/-- `examples/synthetic_strings.rs:117-137` — the body of the loop over the roots: the line written,
if any, and the new count. -/
def evalNode (st : Storage) (source : Text) (nodes : Slice Syn) (count node : Nat) :
    Except Fail (Option Line × Nat) :=
  match nodeValue nodes node, nodeRange Flavor.default.ik nodes node with
  | some value, some range =>
    match value with
    | .synthetic id =>
      match st.get id with
      | some string => .ok (some (.value count string), count + 1)
      | none =>
        match source.get range with
        | none => .error .panic
        | some s => .ok (some (.notFound count s), count + 1)
    | .literal =>
      match source.get range with
      | none => .error .panic
      | some s => .ok (some (.value count s), count + 1)
    | .whitespace => .ok (none, count)
    | .error =>
      match source.get range with
      | none => .error .panic
      | some s => .ok (some (.error s), count)
  | _, _ => .error .panic -- a `Node` is inside of the slice

/-- `examples/synthetic_strings.rs:115-137` — the lines written for the roots `ids`. -/
def evalLoop (st : Storage) (source : Text) (nodes : Slice Syn) : Nat → List Nat →
    Except Fail (List Line)
  | _, [] => .ok []
  | count, id :: ids =>
    match evalNode st source nodes count id with
    | .error e => .error e
    | .ok (line, count) =>
      match evalLoop st source nodes count ids with
      | .error e => .error e
      | .ok lines => .ok (line.toList ++ lines)

/-- `examples/synthetic_strings.rs:99-137` — the program from the source on, for any contents of the
storage: the lines written under `Eval:`. (`children()` is run to its end first, and then the body of
the loop for each node it hands out.) -/
def run (st : Storage) (source : Text) : Except Fail (List Line) :=
  match tokenLoop Flavor.default st (source.length + 1) (Lexer.new source) Sys.init with
  | .error e => .error e
  | .ok tree =>
    match tree.b.build with
    | .error e => .error (.builder e)
    | .ok t =>
      match forLoop (Children.next t.nodes) id (t.nodes.length + 1) t.children with
      | none => .error (.builder .diverge)
      | some ids => evalLoop st source t.nodes 0 ids

end Syntree.Synth
