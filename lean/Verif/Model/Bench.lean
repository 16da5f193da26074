import Verif.Model.Macro
import Verif.Model.Text

/-!
# Model of the programs in `benches/comparisons.rs` that use the library

What is measured is modelled, the measuring is not.
-/

namespace Syntree.Bench

/-- `benches/comparisons.rs:9-14` — `Syntax`. -/
inductive Syn where
  | string
  | entry
  | whitespace
  | root
  deriving DecidableEq, Repr

/-- `Cycle::next` of `core::iter`, taken `n` times: `rest` is what is left of the current round; when
it is used up, a new round is started, and if that has nothing to give either then it is over. -/
def cycleFrom {β : Type} (items : List β) : Nat → List β → List β
  | 0, _ => []
  | n + 1, x :: rest => x :: cycleFrom items n rest
  | n + 1, [] =>
    match items with
    | [] => []
    | x :: rest => x :: cycleFrom items n rest

/-- `strings.iter().cycle().take(count)` (`benches/comparisons.rs:46`), and what
`(0..n).zip(strings.iter().cycle())` pairs with the numbers (`benches/comparisons.rs:92`). -/
def cycled {β : Type} (items : List β) (n : Nat) : List β := cycleFrom items n items

/-- `let c = builder.checkpoint()?; ..; builder.close_at(&c, root)?; builder.build()`, with `?` after
all the calls in between: the frame of both programs. -/
def framed {α : Type} (fl : Flavor) (calls : List (Op α)) (root : α) : Except Err (Tree α) :=
  match Sys.init.tryRun fl (.checkpoint :: (calls ++ [.closeAt 0 root])) with
  | .error e => .error e
  | .ok s => s.b.build

/-- `benches/comparisons.rs:38-52` — `syntree_build`. -/
def build (fl : Flavor) (strings : List Text) (count : Nat) : Except Err (Tree Syn) :=
  framed fl ((cycled strings count).map fun s => .token .string (Text.bytes s)) .root

/-- `benches/comparisons.rs:84-101` — `syntree_tree`. -/
def tree (fl : Flavor) (n : Nat) (strings : List Text) : Except Err (Tree Syn) :=
  framed fl ((cycled strings n).flatMap fun s =>
    [.open .entry, .token .string (Text.bytes s), .close, .token .whitespace 1]) .root

end Syntree.Bench
