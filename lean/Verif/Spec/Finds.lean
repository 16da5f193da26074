import Verif.Model.Node

/-!
# Searching a list from both ends
-/

namespace Syntree

/-- What searching a list from both ends, again and again, hands out: `(true, p)` takes everything up
to the first element with `p` away from the front and hands out that element, `(false, p)` the same
from the back. `p` being always true, this is taking the elements from the two ends. -/
def takeFinds {β : Type} : List (Bool × (β → Bool)) → List β → List (Option β)
  | [], _ => []
  | (true, p) :: cs, l => l.find? p :: takeFinds cs (l.dropWhile (fun x => !p x)).tail
  | (false, p) :: cs, l => l.reverse.find? p ::
      takeFinds cs (l.reverse.dropWhile (fun x => !p x)).tail.reverse

/-- Run a double-ended iterator with a sequence of calls of `find` (`true`) and `rfind` (`false`). -/
def runFinds {σ β : Type} (find rfind : (β → Bool) → NextFn σ β) :
    List (Bool × (β → Bool)) → σ → List (Got β)
  | [], _ => []
  | (b, p) :: cs, s =>
    let r := if b then find p s else rfind p s
    r.2 :: runFinds find rfind cs r.1

end Syntree
