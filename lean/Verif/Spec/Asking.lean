/-!
# Asking a predicate that remembers

What a predicate is asked, and in what order, is a list of candidates.
-/

namespace Syntree

/-- Ask about the candidates in order, until one is accepted: what the predicate then remembers, and
the accepted one. -/
def askUntil {μ β : Type} (p : μ → β → μ × Bool) : μ → List β → μ × Option β
  | m, [] => (m, none)
  | m, x :: l => if (p m x).2 then ((p m x).1, some x) else askUntil p (p m x).1 l

/-- Ask about the candidates in order, until one is refused: what the predicate then remembers, and
the last one that was accepted (`b` if none was). -/
def askWhile {μ β : Type} (p : μ → β → μ × Bool) : μ → β → List β → μ × β
  | m, b, [] => (m, b)
  | m, b, x :: l => if (p m x).2 then askWhile p (p m x).1 x l else ((p m x).1, b)

/-- `l` is what is reached from `b` by taking the step `f` again and again, as long as there is
one. -/
inductive Iterated {β : Type} (f : β → Option β) : β → List β → Prop where
  | stop {b : β} : f b = none → Iterated f b []
  | step {b c : β} {l : List β} : f b = some c → Iterated f c l → Iterated f b (c :: l)

end Syntree
