import Verif.Model.Builder
import Verif.Model.Edit
import Verif.Model.Print
import Verif.Spec.Nested
import Verif.Proof.Refine
import Verif.Props.Traverse
import Verif.Props.Wider
import Verif.Props.Final
import Verif.Props.Math
import Verif.Props.Synth
import Verif.Props.Session
import Verif.Props.Misuse
import Verif.Props.History
import Verif.Props.Spans
import Verif.Props.Range
import Verif.Props.Queries
import Verif.Props.Macro
import Verif.Props.Empty
import Verif.Props.Small
import Verif.Props.Equal
import Verif.Props.Calc
import Verif.Props.Edit
import Verif.Props.Reading
import Verif.Props.Fault
import Verif.Props.Output
import Verif.Props.Context
import Verif.Props.Loose
import Verif.Props.Levels
import Verif.Props.Written
import Verif.Props.Depth
import Verif.Props.Late
import Verif.Props.Unused
import Verif.Props.Alike
import Verif.Props.Order
import Verif.Props.Replay
import Verif.Props.Spelled
import Verif.Props.Anyhow
import Verif.Props.Apart
import Verif.Props.Innermost
import Verif.Props.Keys
import Verif.Props.Value
import Verif.Check.Docs
import Verif.Props.Asking
import Verif.Props.Cost
import Verif.Props.Growth
import Verif.Props.Pieces
import Verif.Props.Bench
import Verif.Props.Storeless
import Verif.Props.Declared
import Verif.Props.Emptiness
import Verif.Props.EditSet
import Verif.Props.Comparing
import Verif.Props.Writing
import Verif.Props.Address
import Verif.Props.CalcError
import Verif.Props.Hint
import Verif.Props.CalcStack
import Verif.Props.Capacity
import Verif.Props.SkipEnds
import Verif.Props.EditRow
import Verif.Axioms
