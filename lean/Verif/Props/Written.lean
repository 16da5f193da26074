import Verif.Proof.Written
import Verif.Props.Macro

/-! # C74: what is written inside `tree! { .. }` is what is built -/

namespace Syntree

variable {α ε : Type} {fl : Flavor}

open Src

/-- C74: every literal that can be read in one way only (`Src.Clear`: a length and the value of an
empty token is not written as a pair, and the value of a node not as `(x, (y, z))`), with or without a
comma after the last item of any list, compiles to exactly the calls its author expects — the tree is
the one of the literal in the sense of C01 — provided the compiler allows one expansion for each
item of a list and each level; and otherwise it does not compile. -/
theorem C74_read_as_written (val : Expr ε → α) (num : Expr ε → Nat) (s : Src ε) (hs : s.Clear)
    (limit : Nat) :
    s.write.tree fl val num limit =
      if 1 + max 1 s.nested ≤ limit then some ((s.lit val num).tree fl) else none := by
  cases limit with
  | zero => rw [if_neg (by omega)]; rfl
  | succ n =>
    simp only [Tts.tree]
    rw [s.calls_write hs n]
    by_cases h : max 1 s.nested ≤ n
    · rw [if_pos h, if_pos (by omega)]
      simp only [Option.map_some, Src.lit_calls]
      rfl
    · rw [if_neg h, if_neg (by omega)]; rfl

/-- C74: conversely, whatever tokens are written, if they compile they are the text of such a literal,
and the tree is the one of that literal. -/
theorem C74_nothing_else_compiles (val : Expr ε → α) (num : Expr ε → Nat) (t : Tts ε) (limit : Nat)
    {r : Except Err (Tree α)} (h : t.tree fl val num limit = some r) :
    ∃ s : Src ε, s.Clear ∧ s.write = t ∧ r = (s.lit val num).tree fl := by
  cases limit with
  | zero => simp [Tts.tree] at h
  | succ n =>
    simp only [Tts.tree, Option.map_eq_some_iff] at h
    obtain ⟨cs, hc, rfl⟩ := h
    obtain ⟨s, h1, h2, h3⟩ := Tts.calls_inv n t cs hc
    refine ⟨s, h1, h2, ?_⟩
    rw [← h3, Src.lit_calls]
    rfl

/-- C74: two literals that can be read in one way only and have the same text stand for the same
calls. -/
theorem C74_one_reading {s s' : Src ε} (h : s.Clear) (h' : s'.Clear) (e : s.write = s'.write) :
    s.calls = s'.calls := by
  have a := s.calls_write h (max 1 s.nested + max 1 s'.nested)
  have b := s'.calls_write h' (max 1 s.nested + max 1 s'.nested)
  rw [if_pos (by omega)] at a b
  rw [e, b] at a
  simpa using a.symm

/-- C74: what becomes of the literals that are left out: the value `(x, n)` of an empty token is read
as a token of length `n`, a length `(s, e)` as a span, and the value `(x, (s, e))` of a node as a
node with a span. -/
theorem C74_pairs {x n s e p q w : Expr ε} (hp : IsPair x n p) (hq : IsPair s e q)
    (hw : IsPair x q w) (k r : Src ε) :
    (Src.tokenEmpty p r).write = (Src.token x n r).write ∧
    (Src.token x q r).write = (Src.tokenWith x s e r).write ∧
    (Src.open w k r).write = (Src.openWith x s e k r).write := by
  cases hp; cases hq; cases hw
  exact ⟨rfl, rfl, rfl⟩

/-! ## An example -/

/-- `"root" => { ("a", 1), "b", ("c", (0, 3)) => { }, (d, e).0 => { "x", }, ("y", (4, 5)), }` -/
def sampleSrc : Src String :=
  .open ⟨.atom "root", []⟩
    (.token ⟨.atom "a", []⟩ ⟨.atom "1", []⟩ <|
     .tokenEmpty ⟨.atom "b", []⟩ <|
     .openWith ⟨.atom "c", []⟩ ⟨.atom "0", []⟩ ⟨.atom "3", []⟩ .nil <|
     .open ⟨.paren (.atom "d" (.comma (.atom "e" .nil))), [".0"]⟩ (.tokenEmpty ⟨.atom "x", []⟩ .trail) <|
     .tokenWith ⟨.atom "y", []⟩ ⟨.atom "4", []⟩ ⟨.atom "5", []⟩ .trail)
    .nil

theorem not_pair_atom (e : ε) (l : List ε) : ¬ SomePair (⟨.atom e, l⟩ : Expr ε) := by
  rintro ⟨x, y, h⟩; simp [IsPair] at h

theorem atom_ok (e : ε) (l : List ε) : (⟨.atom e, l⟩ : Expr ε).Ok := by
  intro i hi; simp at hi

theorem sampleSrc_clear : sampleSrc.Clear := by
  refine ⟨atom_ok _ _, fun y z _ h => by simp [IsPair] at h, ?_, trivial⟩
  refine ⟨atom_ok _ _, atom_ok _ _, not_pair_atom _ _, atom_ok _ _, not_pair_atom _ _, atom_ok _ _,
    atom_ok _ _, atom_ok _ _, trivial, ?_⟩
  refine ⟨?_, fun y z _ h => by simp [IsPair] at h, ⟨atom_ok _ _, not_pair_atom _ _, trivial⟩,
    atom_ok _ _, atom_ok _ _, atom_ok _ _, trivial⟩
  intro i hi
  cases hi
  rfl

example := C74_read_as_written (fl := .default) (fun x => x) (fun _ => 1) sampleSrc sampleSrc_clear 128

example : sampleSrc.nested = 6 := rfl

example : sampleSrc.calls.length = 10 := rfl

example :=
  C74_nothing_else_compiles (fl := .default) (fun x => x) (fun _ => 1) sampleSrc.write 128
    (C74_read_as_written (fl := .default) (fun x => x) (fun _ => 1) sampleSrc sampleSrc_clear 128)

example : sampleSrc.calls = sampleSrc.calls := C74_one_reading sampleSrc_clear sampleSrc_clear rfl

example (a b c d : String) := C74_pairs (x := ⟨.atom a, []⟩) (n := ⟨.atom b, []⟩) (s := ⟨.atom c, []⟩)
  (e := ⟨.atom d, []⟩) rfl rfl rfl .nil .trail

/-- `("a", 5,)` is not a pair but an expression with a trailing comma: an empty token whose value is
a tuple. -/
example : (Tts.paren (.atom "a" (.comma (.atom "5" (.comma .nil)))) .nil).calls 3 =
    some [.tokenEmpty ⟨.paren (.atom "a" (.comma (.atom "5" (.comma .nil)))), []⟩] := by decide

/-- `"a" "b"` does not compile. -/
example : (Tts.atom "a" (.atom "b" .nil)).calls 100 = none := by decide

end Syntree
