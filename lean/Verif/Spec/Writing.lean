import Verif.Spec.Obtained

/-! # Vocabulary about writing -/

namespace Syntree

variable {ω ε : Type}

/-- `Written write o l o' r`: the texts `l` are written in this order by a writer in state `o`, up to
and including the first that fails. `o'` is the state of the writer after that, `r` the error, if
there was one. -/
inductive Written (write : ω → String → ω × Except ε Unit) :
    ω → List String → ω → Option ε → Prop
  | done {o : ω} : Written write o [] o none
  | more {o o1 o2 : ω} {s : String} {l : List String} {r : Option ε} :
      write o s = (o1, .ok ()) → Written write o1 l o2 r → Written write o (s :: l) o2 r
  | fail {o o1 : ω} {s : String} {l : List String} {e : ε} :
      write o s = (o1, .error e) → Written write o (s :: l) o1 (some e)

/-- The bytes of a text, in UTF-8. -/
def utf8 (s : String) : List UInt8 := s.toByteArray.data.toList

/-- A line as it is written: the depth of its node, and the pieces. -/
structure Outline where
  depth : Int
  pieces : List String

/-- Twice the depth is a width that is accepted. -/
def Outline.fits (limit : Nat) (x : Outline) : Bool := decide (x.depth * 2 ≤ limit)

end Syntree
