import Verif.Spec.Print
import Verif.Spec.Chars
import Verif.Model.Debug

/-! # What `{:?}` of a tree looks like, and texts that can be read back -/

namespace Syntree

variable {α : Type}

/-- `Display` and `Debug` of an unsigned integer: decimal notation. -/
def showNat (n : Nat) : String := String.ofList (spell n)

/-- `Debug` of a signed integer. -/
def showInt : Int → String
  | .ofNat n => showNat n
  | .negSucc n => "-" ++ showNat (n + 1)

/-- The entry of one node in the output of `{:?}`: depth, value and span. -/
def entryOf (debugData : α → String) (depth : Nat) (x : Lab α) : String :=
  "(" ++ showNat depth ++ ", Node { data: " ++ debugData x.data ++ ", span: (" ++
    showNat x.span.start ++ ", " ++ showNat x.span.stop ++ ") })"

/-- The same on several lines, as `{:#?}` writes it, inside of a tree. -/
def prettyOf (debugData : α → String) (depth : Nat) (x : Lab α) : String :=
  "        (\n" ++
  "            " ++ showNat depth ++ ",\n" ++
  "            Node {\n" ++
  "                data: " ++ debugData x.data ++ ",\n" ++
  "                span: (\n" ++
  "                    " ++ showNat x.span.start ++ ",\n" ++
  "                    " ++ showNat x.span.stop ++ ",\n" ++
  "                ),\n" ++
  "            },\n" ++
  "        ),\n"

/-- The texts of the values are different for different values, and made of characters other than
commas, at signs and line breaks; they do not start with a blank. Names are like this, so it is met
by the derived `Debug` of an enum without fields. -/
structure Readable (debugData : α → String) : Prop where
  inj : ∀ x y, debugData x = debugData y → x = y
  comma : ∀ x, ',' ∉ (debugData x).toList
  atSign : ∀ x, '@' ∉ (debugData x).toList
  line : ∀ x, '\n' ∉ (debugData x).toList
  blank : ∀ x, (debugData x).toList.head? ≠ some ' '

end Syntree
