import Verif.Model.Synth
import Verif.Spec.Calc

/-!
# What the synthetic strings example is meant to do
-/

namespace Syntree.Synth

open Calc (Stops)

/-- Kinds of pieces of a text. -/
inductive Kind where
  | whitespace | ref | literal | error
  deriving DecidableEq, Repr

/-- `Lexed cs pieces`: the text `cs` is cut into the pieces, each with its kind: maximal runs of
whitespace; a dollar sign and all lowercase letters behind it; maximal runs of letters; and anything
else up to the next whitespace. -/
inductive Lexed : Text → List (Kind × Text) → Prop where
  | nil : Lexed [] []
  | whitespace {c : Char} {run rest : Text} {ps : List (Kind × Text)} :
      (∀ x ∈ c :: run, isWhitespace x) → Stops isWhitespace rest →
      Lexed rest ps → Lexed (c :: run ++ rest) ((.whitespace, c :: run) :: ps)
  | ref {name rest : Text} {ps : List (Kind × Text)} :
      (∀ x ∈ name, isLower x) → Stops isLower rest →
      Lexed rest ps → Lexed ('$' :: name ++ rest) ((.ref, '$' :: name) :: ps)
  | literal {c : Char} {run rest : Text} {ps : List (Kind × Text)} :
      (∀ x ∈ c :: run, isAlpha x) → Stops isAlpha rest →
      Lexed rest ps → Lexed (c :: run ++ rest) ((.literal, c :: run) :: ps)
  | error {c : Char} {run rest : Text} {ps : List (Kind × Text)} :
      isWhitespace c = false → c ≠ '$' → isAlpha c = false → (∀ x ∈ run, isWhitespace x = false) →
      Stops (fun x => !isWhitespace x) rest →
      Lexed rest ps → Lexed (c :: run ++ rest) ((.error, c :: run) :: ps)

/-- What the last definition of a name says. -/
def meaning (defs : List (Text × Text)) (name : Text) : Option Text :=
  (defs.reverse.find? (fun d => d.1 == name)).map (·.2)

/-- The storage after some definitions. -/
def storageOf (defs : List (Text × Text)) : Storage :=
  defs.foldl (fun s d => s.insert d.1 d.2) Storage.empty

/-- The lines for a text: words and defined names are numbered and shown with what they stand for,
everything else is reported as an error, and whitespace is left out. -/
def linesFor (defs : List (Text × Text)) : Nat → List (Kind × Text) → List Line
  | _, [] => []
  | n, (.whitespace, _) :: ps => linesFor defs n ps
  | n, (.literal, t) :: ps => .value n t :: linesFor defs (n + 1) ps
  | n, (.error, t) :: ps => .error t :: linesFor defs n ps
  | n, (.ref, t) :: ps =>
    match meaning defs t.tail with
    | some v => .value n v :: linesFor defs (n + 1) ps
    | none => .error t :: linesFor defs n ps

end Syntree.Synth
