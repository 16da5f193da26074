import Verif.Model.FlavorMacro

/-! # Declarations of flavors -/

namespace Syntree

/-- A line that may be left out. -/
def optLine (k : Key) : Option Ty → Decl
  | none => []
  | some ty => [(k, ty)]

end Syntree
