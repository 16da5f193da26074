import Verif.Model.Node

/-! # Size hints -/

namespace Syntree

variable {α σ : Type}

/-- What `Iterator::size_hint` returns: a lower bound and, if there is one, an upper bound. -/
abbrev SizeHint := Nat × Option Nat

/-- `core::iter::Iterator::size_hint`, the default method. It is what `Ancestors`
(`src/node/ancestors.rs:118-130`), `Children` (`src/node/children.rs:152-187`), `Siblings`
(`src/node/siblings.rs:148-160`), `Walk` (`src/node/walk.rs:251-267`), `WithDepths`
(`src/node/walk.rs:332-349`), `Inside` (`src/node/walk.rs:428-448`) and `WalkEvents`
(`src/node/walk_events.rs:232-245`) use: none of them has its own. -/
def SizeHint.default : σ → SizeHint := fun _ => (0, none)

/-- `src/node/skip_tokens.rs:97-100` — `SkipTokens::size_hint`. -/
def SkipTokens.sizeHint (hint : σ → SizeHint) : σ → SizeHint := fun s =>
  let (_, upper) := hint s
  (0, upper)

end Syntree
