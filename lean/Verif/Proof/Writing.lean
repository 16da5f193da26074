import Verif.Model.Writing
import Verif.Spec.Writing
import Verif.Proof.Comparing
import Verif.Props.Depth

/-! Printing to a writer that may fail. -/

namespace Syntree

variable {α ω ε : Type}

theorem Written.det {write : ω → String → ω × Except ε Unit} {o : ω} {l : List String} {o1 o2 : ω}
    {r1 r2 : Option ε} (h1 : Written write o l o1 r1) (h2 : Written write o l o2 r2) :
    o1 = o2 ∧ r1 = r2 := by
  induction h1 with
  | done => cases h2; exact ⟨rfl, rfl⟩
  | more e _ ih =>
    cases h2 with
    | more e' h' =>
      rw [e] at e'; cases e'
      exact ih h'
    | fail e' => rw [e] at e'; cases e'
  | fail e =>
    cases h2 with
    | more e' h' => rw [e] at e'; cases e'
    | fail e' => rw [e] at e'; cases e'; exact ⟨rfl, rfl⟩

/-- The error of a result, if it is one. -/
def failed : Except ε Unit → Option ε
  | .ok _ => none
  | .error e => some e

theorem written_pieces (write : ω → String → ω × Except ε Unit) : ∀ (l : List String) (o : ω),
    Written write o l (writePieces write o l).1 (failed (writePieces write o l).2)
  | [], _ => .done
  | s :: l, o => by
    rcases e : write o s with ⟨o1, r⟩
    cases r with
    | ok u => simp only [writePieces, e]; exact .more e (written_pieces write l o1)
    | error x => simp only [writePieces, e, failed]; exact .fail e

theorem Written.append {write : ω → String → ω × Except ε Unit} {o o1 o2 : ω} {l l' : List String}
    {r : Option ε} (h : Written write o l o1 none) (h' : Written write o1 l' o2 r) :
    Written write o (l ++ l') o2 r := by
  generalize hn : (none : Option ε) = n at h
  induction h with
  | done => exact h'
  | more e _ ih => exact .more e (ih h' hn)
  | fail e => cases hn

theorem Written.append_fail {write : ω → String → ω × Except ε Unit} {o o1 : ω}
    {l : List String} (l' : List String) {e : ε} (h : Written write o l o1 (some e)) :
    Written write o (l ++ l') o1 (some e) := by
  generalize hn : some e = n at h ⊢
  induction h with
  | done => cases hn
  | more e _ ih => exact .more e (ih hn)
  | fail e => exact .fail e

/-- How a call ends, after the writing has ended: with the error, or else with what comes then. -/
def finishWith (r : Option ε) (f : Finish ε) : Finish ε :=
  match r with
  | some e => .err e
  | none => f

theorem printLoop_of_yields {limit : Nat} {cut : Nat → String → List String}
    {write : ω → String → ω × Except ε Unit} {nodes : Slice α} {line : Int × Nat → String}
    {w : WalkEvents} {l : List (Int × Nat)} (h : Yields (WithDepths.next nodes) w l) :
    (∀ p ∈ l, 0 ≤ p.1) → ∀ fuel o, l.length < fuel →
    ∃ r, Written write o
        (((l.map fun p => (⟨p.1, cut p.2 (line p)⟩ : Outline)).takeWhile
          (Outline.fits limit)).flatMap (·.pieces))
        (printLoop limit cut write nodes line fuel o w).1 r ∧
      (printLoop limit cut write nodes line fuel o w).2 = finishWith r
        (if (l.map fun p => (⟨p.1, cut p.2 (line p)⟩ : Outline)).all (Outline.fits limit) then .ok
          else .panic) := by
  induction h with
  | done e =>
    intro _ fuel o hf
    cases fuel with
    | zero => omega
    | succ fuel => exact ⟨none, by simp only [printLoop, e]; exact .done, by simp [printLoop, e, finishWith]⟩
  | @item s s2 x l e _ ih =>
    intro hp fuel o hf
    cases fuel with
    | zero => omega
    | succ fuel =>
      simp only [List.length_cons] at hf
      have h0 := hp x (by simp)
      by_cases hx : (limit : Int) < x.1 * 2
      · have hfit : Outline.fits limit ⟨x.1, cut x.2 (line x)⟩ = false :=
          decide_eq_false (by simp only; omega)
        refine ⟨none, ?_, ?_⟩
        · simp only [printLoop, e, hx, or_true, if_true, List.map_cons, List.takeWhile_cons, hfit]
          exact .done
        · simp [printLoop, e, hx, hfit, finishWith]
      · have hfit : Outline.fits limit ⟨x.1, cut x.2 (line x)⟩ = true :=
          decide_eq_true (by simp only; omega)
        have hc : ¬ (x.1 < 0 ∨ (limit : Int) < x.1 * 2) := by omega
        have hw := written_pieces write (cut x.2 (line x)) o
        rcases e1 : writePieces write o (cut x.2 (line x)) with ⟨o1, r1⟩
        rw [e1] at hw
        cases r1 with
        | error er =>
          refine ⟨some er, ?_, ?_⟩
          · simp only [printLoop, e, hc, if_false, e1, List.map_cons, List.takeWhile_cons, hfit,
              if_true, List.flatMap_cons]
            exact hw.append_fail _
          · simp [printLoop, e, hc, e1, finishWith]
        | ok u =>
          obtain ⟨r, h1, h2⟩ := ih (fun p hq => hp p (by simp [hq])) fuel o1 (by omega)
          refine ⟨r, ?_, ?_⟩
          · simp only [printLoop, e, hc, if_false, e1, List.map_cons, List.takeWhile_cons, hfit,
              if_true, List.flatMap_cons]
            exact Written.append hw h1
          · simp only [printLoop, e, hc, if_false, e1, List.map_cons, List.all_cons, hfit,
              Bool.true_and]
            exact h2

theorem utf8_append (a b : String) : utf8 (a ++ b) = utf8 a ++ utf8 b := by
  simp [utf8, String.toByteArray_append, ByteArray.data_append]

theorem utf8_join (l : List String) : utf8 (String.join l) = l.flatMap utf8 := by
  have key : ∀ (l : List String) (s : String), utf8 (l.foldl (· ++ ·) s) = utf8 s ++ l.flatMap utf8 := by
    intro l
    induction l with
    | nil => intro s; simp
    | cons x l ih => intro s; rw [List.foldl_cons, ih, utf8_append]; simp
  rw [String.join, key]; simp [utf8]

theorem written_vec : ∀ (l : List String) (o : List UInt8),
    Written (ε := ε) vecWrite o l (o ++ l.flatMap utf8) none
  | [], o => by simpa using Written.done
  | s :: l, o => by
    have := written_vec l (o ++ utf8 s)
    rw [List.append_assoc] at this
    exact .more rfl this

theorem written_buffer : ∀ (l : List String) (o : Buffer),
    ∃ o', o'.held = o.held ++ (l.flatMap utf8).take o.room ∧
      Written bufferWrite o l o' (if (l.flatMap utf8).length ≤ o.room then none else some ())
  | [], o => ⟨o, by simp, by simpa using Written.done⟩
  | s :: l, o => by
    by_cases hs : (utf8 s).length ≤ o.room
    · have e : bufferWrite o s = (⟨o.held ++ utf8 s, o.room - (utf8 s).length⟩, .ok ()) := by
        have hs' : s.toByteArray.data.toList.length ≤ o.room := hs
        simp only [bufferWrite, List.take_of_length_le hs', utf8]
        rw [if_pos hs']
      obtain ⟨o', h1, h2⟩ := written_buffer l ⟨o.held ++ utf8 s, o.room - (utf8 s).length⟩
      refine ⟨o', ?_, ?_⟩
      · rw [h1]
        simp only [List.flatMap_cons, List.take_append, List.append_assoc,
          List.take_of_length_le hs]
      · have hc : ((s :: l).flatMap utf8).length ≤ o.room ↔
            (l.flatMap utf8).length ≤ o.room - (utf8 s).length := by
          simp only [List.flatMap_cons, List.length_append]; omega
        simp only [hc]
        exact .more e h2
    · have e : bufferWrite o s =
          (⟨o.held ++ (utf8 s).take o.room, o.room - (utf8 s).length⟩, .error ()) := by
        have hs' : ¬ s.toByteArray.data.toList.length ≤ o.room := hs
        simp only [bufferWrite, utf8]
        rw [if_neg hs']
      refine ⟨⟨o.held ++ (utf8 s).take o.room, o.room - (utf8 s).length⟩, ?_, ?_⟩
      · simp only [List.flatMap_cons, List.take_append]
        rw [show o.room - (utf8 s).length = 0 by omega]; simp
      · have hc : ¬ ((s :: l).flatMap utf8).length ≤ o.room := by
          simp only [List.flatMap_cons, List.length_append]; omega
        rw [if_neg hc]
        exact .fail e

end Syntree
