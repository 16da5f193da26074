import Verif.Spec.Built
import Verif.Spec.Finds

/-!
# `skip_tokens()` from both ends
-/

namespace Syntree

/-- The state `s` of a double-ended iterator stands for the list `l`. -/
def GivesEnds {σ β : Type} (next back : NextFn σ β) (s : σ) (l : List β) : Prop :=
  ∀ bs, runEnds next back bs s = (takeEnds bs l).map Got.ofOption

variable {σ β : Type} {next back : NextFn σ β} {s : σ} {l : List β}

theorem GivesEnds.front (h : GivesEnds next back s l) :
    (next s).2 = Got.ofOption l.head? ∧ GivesEnds next back (next s).1 l.tail := by
  refine ⟨?_, fun bs => ?_⟩
  · have := h [true]
    simpa [runEnds, takeEnds] using this
  · have := h (true :: bs)
    simp only [runEnds, takeEnds, if_true, List.map_cons, List.cons.injEq] at this
    exact this.2

theorem runEnds_swap (bs : List Bool) : ∀ s : σ,
    runEnds back next bs s = runEnds next back (bs.map (!·)) s := by
  induction bs with
  | nil => intro s; rfl
  | cons b bs ih => intro s; cases b <;> simp [runEnds, ih]

theorem takeEnds_swap (bs : List Bool) : ∀ l : List β,
    takeEnds bs l.reverse = takeEnds (bs.map (!·)) l := by
  induction bs with
  | nil => intro l; rfl
  | cons b bs ih =>
    intro l
    cases b
    · simp only [takeEnds, List.map_cons, Bool.not_false, List.getLast?_reverse]
      rw [← ih l.tail, List.dropLast_reverse]
    · simp only [takeEnds, List.map_cons, Bool.not_true, List.head?_reverse]
      rw [← ih l.dropLast, List.tail_reverse]

theorem GivesEnds.swap (h : GivesEnds next back s l) : GivesEnds back next s l.reverse := fun bs => by
  rw [runEnds_swap, takeEnds_swap]
  exact h _

theorem GivesEnds.find (q : β → Bool) : ∀ (fuel : Nat) {s : σ} {l : List β}, GivesEnds next back s l →
    l.length < fuel →
    (findLoop next q fuel s).2 = Got.ofOption (l.find? q) ∧
      GivesEnds next back (findLoop next q fuel s).1 (l.dropWhile (fun x => !q x)).tail
  | 0, _, _, _, h => absurd h (Nat.not_lt_zero _)
  | fuel + 1, s, l, h, hl => by
    obtain ⟨h1, h2⟩ := h.front
    rw [findLoop]
    generalize next s = r at h1 h2
    obtain ⟨s', g⟩ := r
    dsimp only at h1 h2
    cases l with
    | nil =>
      subst h1
      exact ⟨rfl, h2⟩
    | cons x l =>
      subst h1
      simp only [List.head?_cons, Got.ofOption]
      by_cases hq : q x = true
      · simp only [hq, if_true, List.find?_cons, List.dropWhile_cons, Bool.not_true]
        exact ⟨trivial, h2⟩
      · have hq : q x = false := by simpa using hq
        simp only [hq, List.find?_cons, List.dropWhile_cons, Bool.not_false, if_true]
        exact GivesEnds.find q fuel h2 (Nat.lt_of_succ_lt_succ hl)

theorem skip_find_filter (c p : β → Bool) : ∀ l : List β,
    l.find? (fun x => c x && p x) = (l.filter c).find? p ∧
    (l.dropWhile (fun x => !(c x && p x))).tail.filter c =
      ((l.filter c).dropWhile (fun x => !p x)).tail
  | [] => ⟨rfl, rfl⟩
  | x :: l => by
    obtain ⟨a, b⟩ := skip_find_filter c p l
    cases hc : c x
    · simp only [List.find?_cons, List.dropWhile_cons, List.filter_cons, hc, Bool.false_and,
        Bool.not_false, if_true, Bool.false_eq_true, if_false]
      exact ⟨a, b⟩
    · cases hp : p x
      · simp only [List.find?_cons, List.dropWhile_cons, List.filter_cons, hc, hp, Bool.and_false,
          Bool.not_false, if_true]
        exact ⟨a, b⟩
      · simp only [List.find?_cons, List.dropWhile_cons, List.filter_cons, hc, hp, Bool.and_true,
          Bool.not_true, if_true, Bool.false_eq_true, if_false, List.tail_cons, and_self]

theorem skip_remains (q : β → Bool) (l : List β) :
    (l.dropWhile q).tail.length ≤ l.length := by
  have h1 := (List.dropWhile_sublist (p := q) (l := l)).length_le
  simp only [List.length_tail]
  omega

/-- All calls in any order. -/
theorem GivesEnds.finds {α : Type} {nodes : Slice α} {next back : NextFn σ Nat} (cs : List (Bool × (Nat → Bool))) :
    ∀ {s : σ} {l : List Nat}, GivesEnds next back s l → l.length ≤ nodes.length →
    runFinds (SkipTokens.find nodes next) (SkipTokens.rfind nodes back) cs s =
      (takeFinds cs (l.filter (hasChildren nodes))).map Got.ofOption := by
  induction cs with
  | nil => intro s l _ _; rfl
  | cons c cs ih =>
    intro s l h hl
    obtain ⟨b, p⟩ := c
    cases b
    · obtain ⟨h1, h2⟩ := h.swap.find (fun n => hasChildren nodes n && p n) (nodes.length + 1)
        (by simp; omega)
      obtain ⟨f1, f2⟩ := skip_find_filter (hasChildren nodes) p l.reverse
      have h3 := h2.swap
      have h4 := ih h3 (by
        rw [List.length_reverse]
        exact Nat.le_trans (skip_remains _ _) (by simpa using hl))
      simp only [runFinds, takeFinds, List.map_cons, Bool.false_eq_true, if_false]
      rw [List.filter_reverse] at f1 f2
      rw [← f1, ← h1, ← f2, ← List.filter_reverse, ← h4]
      rfl
    · obtain ⟨h1, h2⟩ := h.find (fun n => hasChildren nodes n && p n) (nodes.length + 1)
        (by omega)
      obtain ⟨f1, f2⟩ := skip_find_filter (hasChildren nodes) p l
      have h4 := ih h2 (Nat.le_trans (skip_remains _ _) hl)
      simp only [runFinds, takeFinds, List.map_cons, if_true]
      rw [← f1, ← h1, ← f2, ← h4]
      rfl

end Syntree
