import Verif.Spec.Macro

/-! # A client program: rebuild a tree from a walk over its events -/

namespace Syntree

variable {α : Type}

/-- The call a client makes for one event of `walk_events()`: a node that is left is closed; of a node that is
entered (in whatever way) the value is copied, by `open` if it has children and by `token`, with the length of its
span, otherwise. -/
def replayOne (nodes : Slice α) : Event × Nat → Option (Op α)
  | (.up, _) => some .close
  | (_, i) =>
    match nodeValue nodes i, nodeSpan nodes i with
    | some v, some sp => some (if hasChildren nodes i then .open v else .token v (sp.stop - sp.start))
    | _, _ => none

/-- The calls for all events. -/
def replay (nodes : Slice α) (events : List (Event × Nat)) : List (Op α) := events.filterMap (replayOne nodes)

end Syntree
