import Verif.Spec.Context

/-!
# Deciding late

The calls of a parser that decides only after `sub` that what `sub` adds belongs into a node `d`, and
those of one that knows it beforehand.
-/

namespace Syntree

variable {α : Type}

/-- `let c = checkpoint(); sub; close_at(c, d)` between `pre` and `post`. The checkpoint `c` is number
`k`; those that `sub` takes come after it. -/
def decideLate (k : Nat) (d : α) (pre sub post : List (Op α)) : List (Op α) :=
  pre ++ .checkpoint :: (sub.map (Op.shift (k + 1)) ++ .closeAt k d :: post)

/-- `checkpoint(); open(d); sub; close()` between `pre` and `post`. -/
def decideEarly (k : Nat) (d : α) (pre sub post : List (Op α)) : List (Op α) :=
  pre ++ .checkpoint :: .open d :: (sub.map (Op.shift (k + 1)) ++ .close :: post)

/-- The checkpoints after number `k` are numbered one less. -/
def downFrom (k j : Nat) : Nat := if k < j then j - 1 else j

/-- The same call when checkpoint `k` has not been taken. -/
def Op.without (k : Nat) : Op α → Op α
  | .closeAt j d => .closeAt (downFrom k j) d
  | .closeAtWith j d sp => .closeAtWith (downFrom k j) d sp
  | op => op

/-- The same result when checkpoint `k` has not been taken. -/
def Out.without (k : Nat) : Out → Out
  | .handle j => .handle (downFrom k j)
  | o => o

end Syntree
