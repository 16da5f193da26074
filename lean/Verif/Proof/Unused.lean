import Verif.Proof.Late

/-! A checkpoint that is not used makes no difference. -/

namespace Syntree

open Forest

variable {α : Type} {fl : Flavor}

/-- The state without checkpoint `k`. -/
def Nest.without (k : Nat) (n : Nest α) : Nest α := { n with marks := n.marks.eraseIdx k }

theorem eraseIdx_get {β : Type} {l : List β} {k j : Nat} (h : j ≠ k) :
    (l.eraseIdx k)[downFrom k j]? = l[j]? := by
  unfold downFrom
  rw [List.getElem?_eraseIdx]
  split
  · rw [if_neg (by omega), Nat.sub_add_cancel (by omega)]
  · rw [if_pos (by omega)]

theorem map_eraseIdx {β γ : Type} (f : β → γ) (l : List β) (k : Nat) :
    (l.map f).eraseIdx k = (l.eraseIdx k).map f := by
  induction l generalizing k with
  | nil => rfl
  | cons x l ih => cases k <;> simp [ih]

theorem Nest.wrap_without (k : Nat) (n : Nest α) (p : Nat) (d : α) (e : Option Span) :
    (n.without k).wrap p d e = (n.wrap p d e).without k := by
  unfold Nest.wrap Nest.without
  dsimp only
  split
  · rfl
  · simp only [map_eraseIdx]
    rfl

/-- One call. -/
def stepWithout (k : Nat) (r : Nest α × Except Err Out) : Nest α × Except Err Out :=
  (r.1.without k, r.2.map (Out.without k))

theorem Nest.closeAt_without {k j : Nat} (n : Nest α) (h : j ≠ k) (d : α) (e : Option Span) :
    (n.without k).closeAt fl (downFrom k j) d e = (n.closeAt fl j d e).map (stepWithout k) := by
  unfold Nest.closeAt
  have h1 : (n.without k).marks[downFrom k j]? = n.marks[j]? := eraseIdx_get h
  have h2 : (n.without k).frame = n.frame := rfl
  have h3 : (n.without k).full fl = n.full fl := rfl
  have h4 : (n.without k).count = n.count := rfl
  rw [h1, h2, h3, h4]
  cases n.marks[j]? with
  | none => rfl
  | some m =>
    dsimp only
    split
    · rfl
    · split
      · rfl
      · split
        · rfl
        · rw [Nest.wrap_without]; rfl

theorem Nest.token_without (k : Nat) (n : Nest α) (d : α) (len : Nat) :
    (n.without k).token fl d len = stepWithout k (n.token fl d len) := by
  unfold Nest.token
  have h3 : (n.without k).full fl = n.full fl := rfl
  have h4 : (n.without k).cursor = n.cursor := rfl
  rw [h3, h4]
  split
  · split <;> rfl
  · cases fl.ik.checkedAddLen n.cursor len with
    | none => rfl
    | some c =>
      dsimp only
      split <;> rfl

theorem Nest.step_without {k : Nat} (n : Nest α) (hk : k < n.marks.length) {op : Op α}
    (hu : ∀ d e, ¬ UsesAt op k d e) :
    (n.without k).step fl (op.without k) = (n.step fl op).map (stepWithout k) := by
  cases op with
  | «open» d =>
    simp only [Op.without, Nest.step, Nest.openWith, Option.map_some]
    have h3 : (n.without k).full fl = n.full fl := rfl
    rw [h3]
    split <;> rfl
  | openWith d sp =>
    simp only [Op.without, Nest.step, Nest.openWith, Option.map_some]
    have h3 : (n.without k).full fl = n.full fl := rfl
    rw [h3]
    split <;> rfl
  | close =>
    simp only [Op.without, Nest.step, Option.map_some]
    have h3 : (n.without k).stack = n.stack := rfl
    rw [h3]
    cases n.stack with
    | nil => rfl
    | cons p st => rfl
  | token d len => simp only [Op.without, Nest.step, Option.map_some, Nest.token_without]
  | tokenEmpty d => simp only [Op.without, Nest.step, Option.map_some, Nest.token_without]
  | tokenWith d sp =>
    simp only [Op.without, Nest.step, Option.map_some]
    have h3 : (n.without k).full fl = n.full fl := rfl
    rw [h3]
    split <;> rfl
  | checkpoint =>
    simp only [Op.without, Nest.step, Option.map_some]
    have h3 : (n.without k).full fl = n.full fl := rfl
    rw [h3]
    split
    · rfl
    · have h1 : (n.marks ++ [(⟨n.frame, n.cur.width, true⟩ : Mark)]).eraseIdx k =
          n.marks.eraseIdx k ++ [⟨n.frame, n.cur.width, true⟩] := List.eraseIdx_append_of_lt_length hk _
      have h2 : (n.marks.eraseIdx k).length = downFrom k n.marks.length := by
        rw [List.length_eraseIdx_of_lt hk, downFrom, if_pos hk]
      simp only [stepWithout, Nest.without, h1, Except.map, Out.without, h2]
      rfl
  | closeAt j d =>
    exact n.closeAt_without (fun e => hu d none (by subst e; exact .closeAt j d)) d none
  | closeAtWith j d sp =>
    exact n.closeAt_without (fun e => hu d (some sp) (by subst e; exact .closeAtWith j d sp)) d (some sp)
  | setCursor i => rfl

theorem Did.marks_le {n n' : Nest α} {op : Op α} {o : Except Err Out} (h : Did fl n op n' o) :
    n.marks.length ≤ n'.marks.length := by
  rcases h.marks_cases with e | e | ⟨p, e⟩ <;> rw [e] <;> simp

theorem Nest.run_without {k : Nat} {ops : List (Op α)} : ∀ (n : Nest α), k < n.marks.length →
    (∀ op ∈ ops, ∀ d e, ¬ UsesAt op k d e) →
    (n.without k).run fl (ops.map (Op.without k)) =
      (n.run fl ops).map fun r => (r.1.without k, r.2.map (Except.map (Out.without k))) := by
  induction ops with
  | nil => intro n _ _; rfl
  | cons op ops ih =>
    intro n hk hu
    have h1 := n.step_without (fl := fl) hk (hu op List.mem_cons_self)
    simp only [List.map_cons, Nest.run, h1]
    cases hs : n.step fl op with
    | none => rfl
    | some q =>
      obtain ⟨n1, o⟩ := q
      have hle := (Nest.step_did hs).marks_le
      have h2 := ih n1 (by omega) (fun o ho => hu o (List.mem_cons_of_mem _ ho))
      simp only [Option.map_some, stepWithout, h2]
      cases n1.run fl ops <;> rfl

end Syntree
