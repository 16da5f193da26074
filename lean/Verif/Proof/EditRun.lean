import Verif.Proof.Edit
import Verif.Proof.Spans

/-! The copying machine terminates; what its result is like. -/

namespace Syntree

variable {α : Type} {fl : Flavor}

open Forest

/-! ### Termination -/

/-- What is still to be copied after the current runs of siblings. -/
def rights : ECtx α → Nat
  | [] => 0
  | (_, _, R) :: ctx => R.size + rights ctx

def EM.rem : EM α → Nat
  | .done _ => 0
  | .at _ k r ctx _ => 1 + k.size + r.size + rights ctx

def EM.nest : EM α → Nest α
  | .done n => n
  | .at _ _ _ _ n => n

def CtxBound (N : Nat) : ECtx α → Prop
  | [] => True
  | (_, K, R) :: ctx => 1 + K.size + R.size + rights ctx ≤ N ∧ CtxBound N ctx

def EM.Bound (N : Nat) : EM α → Prop
  | .done _ => True
  | .at _ k r ctx _ => 1 + k.size + r.size + rights ctx ≤ N ∧ CtxBound N ctx

theorem leave_bound {N : Nat} : ∀ (ctx : ECtx α) (n : Nest α), CtxBound N ctx →
    (EM.leave ctx n).Bound N ∧ (EM.leave ctx n).rem ≤ rights ctx ∧
    (EM.leave ctx n).nest.count = n.count
  | [], _, _ => ⟨trivial, Nat.le_refl _, rfl⟩
  | (_, _, .nil) :: ctx, n, h => by
    obtain ⟨h1, h2, h3⟩ := leave_bound ctx n.shut h.2
    refine ⟨h1, ?_, h3.trans n.shut_count⟩
    show (EM.leave ctx n.shut).rem ≤ _
    simp only [rights, Forest.size]; omega
  | (_, _, .cons y k r) :: ctx, n, h => by
    refine ⟨⟨?_, h.2⟩, ?_, n.shut_count⟩
    · have := h.1; simp only [Forest.size] at this; omega
    · simp only [EM.leave, EM.rem, rights, Forest.size]; omega

theorem goto_bound {N : Nat} (F : Forest (Lab α)) (ctx : ECtx α) (n : Nest α) (h : CtxBound N ctx)
    (hF : F.size + rights ctx ≤ N) :
    (EM.goto F ctx n).Bound N ∧ (EM.goto F ctx n).rem ≤ F.size + rights ctx ∧
    (EM.goto F ctx n).nest.count = n.count := by
  cases F with
  | nil =>
    obtain ⟨h1, h2, h3⟩ := leave_bound ctx n h
    exact ⟨h1, by simp only [EM.goto, Forest.size]; omega, h3⟩
  | cons x k r =>
    refine ⟨⟨?_, h⟩, ?_, rfl⟩
    · simp only [Forest.size] at hF; omega
    · simp only [EM.goto, EM.rem, Forest.size]; omega

theorem emit_bound {N : Nat} {x : Lab α} {k r : Forest (Lab α)} {ctx : ECtx α} {n : Nest α}
    (h : CtxBound N ctx) (hF : 1 + k.size + r.size + rights ctx ≤ N) :
    (∀ e, EM.emit fl x k r ctx n = .error e → e = .overflow) ∧
    (∀ m, EM.emit fl x k r ctx n = .ok m → m.Bound N ∧
      m.rem < 1 + k.size + r.size + rights ctx ∧ m.nest.count = n.count + 1) := by
  cases k with
  | nil =>
    unfold EM.emit
    simp only
    cases advance fl.ik n.cursor x.span with
    | none => simp only [Except.error.injEq, reduceCtorEq, false_implies, implies_true, and_true]
              rintro e rfl; rfl
    | some c =>
      simp only [reduceCtorEq, false_implies, implies_true, true_and, Except.ok.injEq]
      rintro m rfl
      simp only [Forest.size] at hF
      obtain ⟨h1, h2, h3⟩ := goto_bound (N := N) r ctx
        ({ n with cursor := c }.addLeaf x.data ⟨n.cursor, c⟩) h (by omega)
      exact ⟨h1, by simp only [Forest.size]; omega, h3⟩
  | cons y k' r' =>
    unfold EM.emit
    simp only [reduceCtorEq, false_implies, implies_true, true_and, Except.ok.injEq]
    rintro m rfl
    refine ⟨⟨?_, ?_, h⟩, ?_, rfl⟩
    · simp only [rights, Forest.size] at hF ⊢; omega
    · exact hF
    · simp only [EM.rem, rights, Forest.size]; omega

/-- Changes that can still be hit. -/
def pending (S : List Nat) (c : Nat) : Nat := (S.filter (fun j => decide (c ≤ j))).length

theorem pending_succ_le (S : List Nat) (c : Nat) : pending S (c + 1) ≤ pending S c := by
  induction S with
  | nil => exact Nat.le_refl _
  | cons a S ih =>
    unfold pending at ih ⊢
    simp only [List.filter_cons]
    by_cases h1 : c + 1 ≤ a
    · have h2 : c ≤ a := by omega
      simp only [h1, h2, decide_true, if_true, List.length_cons]; omega
    · by_cases h2 : c ≤ a
      · simp only [h1, h2, decide_true, decide_false, if_true, List.length_cons]
        simp only [Bool.false_eq_true, if_false]; omega
      · simp only [h1, h2, decide_false, Bool.false_eq_true, if_false]; exact ih

theorem pending_succ_lt {S : List Nat} {c : Nat} (h : c ∈ S) : pending S (c + 1) < pending S c := by
  induction S with
  | nil => simp at h
  | cons a S ih =>
    have hle := pending_succ_le S c
    unfold pending at ih hle ⊢
    simp only [List.filter_cons]
    by_cases h1 : c + 1 ≤ a
    · have h2 : c ≤ a := by omega
      have hm : c ∈ S := by
        rcases List.mem_cons.1 h with h | h
        · omega
        · exact h
      have := ih hm
      simp only [h1, h2, decide_true, if_true, List.length_cons]; omega
    · by_cases h2 : c ≤ a
      · simp only [h1, h2, decide_true, decide_false, if_true, List.length_cons]
        simp only [Bool.false_eq_true, if_false]; omega
      · simp only [h1, h2, decide_false, Bool.false_eq_true, if_false]
        have hm : c ∈ S := by
          rcases List.mem_cons.1 h with h | h
          · omega
          · exact h
        exact ih hm

/-- The machine stops, and its only error is `Overflow`. The ids it is asked to remove are among
those of `S'`. -/
theorem run_total {S S' : List Nat} (hs : ∀ i ∈ S, i ∈ S') {N : Nat} :
    ∀ (fuel : Nat) (m : EM α), m.Bound N →
    pending S' m.nest.count * N + m.rem + 1 ≤ fuel →
    ∀ e, EM.run fl S fuel m = .error e → e = .overflow
  | 0, _, _, h => by omega
  | fuel + 1, .done n, _, _ => by simp [EM.run]
  | fuel + 1, .at x k r ctx n, hb, hf => by
    obtain ⟨hb1, hb2⟩ := hb
    simp only [EM.nest, EM.rem] at hf
    have hle := Nat.mul_le_mul_right N (pending_succ_le S' n.count)
    simp only [EM.run, EM.step]
    by_cases hfull : n.full fl = true
    · rw [if_pos hfull]
      intro e he; simp only [Except.error.injEq] at he; exact he.symm
    · rw [if_neg hfull]
      by_cases hS : n.count ∈ S
      · have hlt := Nat.mul_le_mul_right N (pending_succ_lt (hs _ hS))
        rw [Nat.succ_mul] at hlt
        rw [if_pos hS]
        cases r with
        | cons y k' r' =>
          simp only [Forest.size] at hb1 hf
          have he := emit_bound (fl := fl) (x := y) (k := k') (r := r') (n := n) hb2 (by omega)
          simp only
          cases hm : EM.emit fl y k' r' ctx n with
          | error e => intro e' h'; simp only [Except.error.injEq] at h'; rw [← h']; exact he.1 e hm
          | ok m =>
            obtain ⟨e1, e2, e3⟩ := he.2 m hm
            exact run_total hs fuel m e1 (by rw [e3]; omega)
        | nil =>
          cases ctx with
          | nil =>
            simp only
            refine run_total hs (N := N) fuel (.done n) trivial ?_
            simp only [EM.nest, EM.rem]
            omega
          | cons p ctx =>
            obtain ⟨p, K, R⟩ := p
            have he := emit_bound (fl := fl) (x := p) (k := K) (r := R) (n := n.shut) hb2.2 hb2.1
            simp only
            cases hm : EM.emit fl p K R ctx n.shut with
            | error e => intro e' h'; simp only [Except.error.injEq] at h'; rw [← h']; exact he.1 e hm
            | ok m =>
              obtain ⟨e1, e2, e3⟩ := he.2 m hm
              have := hb2.1
              exact run_total hs fuel m e1 (by rw [e3, n.shut_count]; omega)
      · rw [if_neg hS]
        have he := emit_bound (fl := fl) (x := x) (k := k) (r := r) (n := n) hb2 hb1
        cases hm : EM.emit fl x k r ctx n with
        | error e => intro e' h'; simp only [Except.error.injEq] at h'; rw [← h']; exact he.1 e hm
        | ok m =>
          obtain ⟨e1, e2, e3⟩ := he.2 m hm
          exact run_total hs fuel m e1 (by rw [e3]; omega)

/-- `(removals + 1) * nodes` rounds, and one, are enough. -/
theorem machine_enough {S S' : List Nat} (hs : ∀ i ∈ S, i ∈ S') (F : Forest (Lab α)) {N fuel : Nat}
    (hN : F.size ≤ N) (hf : (S'.length + 1) * N + 1 ≤ fuel) {e : Err}
    (h : EM.run fl S fuel (EM.goto F [] Nest.init) = .error e) : e = .overflow := by
  have hg := goto_bound (N := N) F [] (Nest.init : Nest α) trivial (by simp only [rights]; omega)
  refine run_total hs (N := N) _ _ hg.1 ?_ e h
  rw [hg.2.2]
  have h1 : pending S' (Nest.init : Nest α).count ≤ S'.length := List.length_filter_le _ _
  have h2 := Nat.mul_le_mul_right N h1
  have h3 := hg.2.1
  simp only [rights] at h3
  rw [Nat.succ_mul] at hf
  omega

theorem machine_total (c : ChangeSet) (F : Forest (Lab α)) {e : Err}
    (h : c.machine fl F = .error e) : e = .overflow :=
  machine_enough (fun _ h => h) F (Nat.le_succ _) (Nat.le_refl _) h

/-! ### What the result is like -/

def pathIds : Stack α → List Nat
  | [] => []
  | (x, left) :: st => pathIds st ++ (left.ids ++ [x.id])

def pathLeaves : Stack α → List (Lab α)
  | [] => []
  | (_, left) :: st => pathLeaves st ++ left.leaves

structure OutInv (n : Nest α) : Prop where
  ids : pathIds n.stack ++ n.cur.ids = List.range n.count
  laid : EndToEnd 0 (pathLeaves n.stack ++ n.cur.leaves) n.cursor
  top : n.cur = .nil → ∀ p st, n.stack = p :: st → p.1.span = ⟨n.cursor, n.cursor⟩
  marks : n.marks = []

theorem EndToEnd.snoc {a b c : Nat} {l : List (Lab α)} {x : Lab α} (h : EndToEnd a l b)
    (h1 : x.span = ⟨b, c⟩) (h2 : b ≤ c) : EndToEnd a (l ++ [x]) c := by
  induction l generalizing a with
  | nil =>
    obtain rfl : a = b := h
    exact ⟨by rw [h1], by rw [h1]; exact h2, by rw [h1]; rfl⟩
  | cons y l ih => exact ⟨h.1, h.2.1, ih h.2.2⟩

theorem pathIds_endParent (c : Nat) (st : Stack α) : pathIds (Nest.endParent c st) = pathIds st := by
  cases st <;> rfl

theorem pathLeaves_endParent (c : Nat) (st : Stack α) :
    pathLeaves (Nest.endParent c st) = pathLeaves st := by
  cases st <;> rfl

theorem OutInv.init : OutInv (Nest.init : Nest α) :=
  ⟨rfl, rfl, fun _ _ _ h => by simp [Nest.init] at h, rfl⟩

theorem advance_le {ik : IndexKind} {c c' : Nat} {sp : Span} (h : advance ik c sp = some c')
    (hc : Lit.Addressable ik c) (h0 : ik = .empty → c = 0) :
    c ≤ c' ∧ Lit.Addressable ik c' ∧ (ik = .empty → c' = 0) ∧ c' = c + sp.len ik := by
  unfold advance at h
  cases ik with
  | bits w =>
    split at h
    · rename_i he
      simp only [Option.some.injEq] at h
      subst h
      simp only [Span.isEmpty, beq_iff_eq] at he
      refine ⟨Nat.le_refl _, hc, by simp, ?_⟩
      simp only [Span.len, IndexKind.lenTo, he]; omega
    · unfold IndexKind.checkedAddLen at h
      simp only at h
      split at h
      · rename_i hlt
        simp only [Option.some.injEq] at h
        subst h
        exact ⟨Nat.le_add_right _ _, hlt, by simp, rfl⟩
      · simp at h
  | empty =>
    have := h0 rfl
    subst this
    split at h <;> (simp [IndexKind.checkedAddLen] at h; subst h; simp [Lit.Addressable, Span.len, IndexKind.lenTo])

theorem OutInv.leaf {n : Nest α} (h : OutInv n) {c : Nat} (hc : n.cursor ≤ c) (d : α) :
    OutInv ({ n with cursor := c }.addLeaf d ⟨n.cursor, c⟩) := by
  refine ⟨?_, ?_, ?_, h.marks⟩
  · show pathIds (Nest.endParent c n.stack) ++ (n.cur ++ Forest.leaf _).ids = List.range (n.count + 1)
    rw [pathIds_endParent, ids_append, ← List.append_assoc, h.ids, List.range_succ]; rfl
  · show EndToEnd 0 (pathLeaves (Nest.endParent c n.stack) ++ (n.cur ++ Forest.leaf _).leaves) c
    rw [pathLeaves_endParent, leaves_append, ← List.append_assoc]
    exact h.laid.snoc rfl hc
  · intro hn
    simp only [Nest.addLeaf] at hn
    exact absurd hn (by intro h0; have := congrArg Forest.tops h0; simp at this)

theorem OutInv.opened {n : Nest α} (h : OutInv n) (d : α) :
    OutInv (n.addOpen d (Span.point n.cursor)) := by
  refine ⟨?_, ?_, ?_, h.marks⟩
  · show (pathIds (Nest.endParent n.cursor n.stack) ++ (n.cur.ids ++ [n.count])) ++ [] =
      List.range (n.count + 1)
    rw [pathIds_endParent, List.append_nil, ← List.append_assoc, h.ids, List.range_succ]
  · show EndToEnd 0 ((pathLeaves (Nest.endParent n.cursor n.stack) ++ n.cur.leaves) ++ []) n.cursor
    rw [pathLeaves_endParent, List.append_nil]; exact h.laid
  · intro _ p st hs
    simp only [Nest.addOpen, List.cons.injEq] at hs
    rw [← hs.1]; rfl

theorem OutInv.shut {n : Nest α} (h : OutInv n) : OutInv n.shut := by
  unfold Nest.shut
  cases hs : n.stack with
  | nil => exact h
  | cons p st =>
    obtain ⟨x, left⟩ := p
    simp only
    have h1 := h.ids
    have h2 := h.laid
    rw [hs] at h1 h2
    refine ⟨?_, ?_, ?_, h.marks⟩
    · simp only [pathIds] at h1
      rw [← h1]
      simp
    · simp only [pathLeaves] at h2
      simp only [leaves_append]
      rw [← List.append_assoc]
      by_cases hk : n.cur = .nil
      · rw [hk] at h2 ⊢
        have ht := h.top hk _ _ hs
        simp only [Forest.leaves, List.append_nil] at h2
        exact h2.snoc ht (Nat.le_refl _)
      · rw [leaves_single _ hk]; exact h2
    · intro h0
      exact absurd h0 (by intro h0; have := congrArg Forest.tops h0; simp at this)

/-- The invariant of the machine. -/
structure MInv (fl : Flavor) (n : Nest α) : Prop where
  out : OutInv n
  addr : Lit.Addressable fl.ik n.cursor
  zero : fl.ik = .empty → n.cursor = 0
  cap : n.count ≤ 2 ^ fl.width - 1

theorem MInv.init : MInv fl (Nest.init : Nest α) :=
  ⟨OutInv.init, by
    cases hk : fl.ik with
    | bits w => exact Nat.two_pow_pos w
    | empty => trivial, fun _ => rfl, Nat.zero_le _⟩

theorem MInv.shut {n : Nest α} (h : MInv fl n) : MInv fl n.shut :=
  ⟨h.out.shut, by rw [n.shut_cursor]; exact h.addr, by rw [n.shut_cursor]; exact h.zero,
    by rw [n.shut_count]; exact h.cap⟩

theorem MInv.leave {n : Nest α} : ∀ (ctx : ECtx α) {n : Nest α}, MInv fl n →
    MInv fl (EM.leave ctx n).nest
  | [], _, h => h
  | (_, _, .nil) :: ctx, _, h => MInv.leave (n := n) ctx h.shut
  | (_, _, .cons _ _ _) :: _, _, h => h.shut

theorem MInv.goto {n : Nest α} (F : Forest (Lab α)) (ctx : ECtx α) (h : MInv fl n) :
    MInv fl (EM.goto F ctx n).nest := by
  cases F with
  | nil => exact MInv.leave (n := n) ctx h
  | cons => exact h

theorem MInv.emit {n : Nest α} (h : MInv fl n) (hc : n.count < 2 ^ fl.width - 1) {x : Lab α}
    {k r : Forest (Lab α)} {ctx : ECtx α} {m : EM α} (hm : EM.emit fl x k r ctx n = .ok m) :
    MInv fl m.nest := by
  unfold EM.emit at hm
  cases k with
  | nil =>
    simp only at hm
    cases ha : advance fl.ik n.cursor x.span with
    | none => rw [ha] at hm; simp at hm
    | some c =>
      rw [ha] at hm
      simp only [Except.ok.injEq] at hm
      subst hm
      obtain ⟨a1, a2, a3, _⟩ := advance_le ha h.addr h.zero
      exact MInv.goto r ctx ⟨h.out.leaf a1 _, a2, a3, hc⟩
  | cons y k' r' =>
    simp only [Except.ok.injEq] at hm
    subst hm
    exact ⟨h.out.opened _, h.addr, h.zero, hc⟩

theorem MInv.run {S : List Nat} : ∀ (fuel : Nat) (m : EM α) {n : Nest α}, MInv fl m.nest →
    EM.run fl S fuel m = .ok n → MInv fl n
  | 0, _, _, _, h => by simp [EM.run] at h
  | fuel + 1, .done n, n', h, hr => by
    simp only [EM.run, Except.ok.injEq] at hr
    subst hr; exact h
  | fuel + 1, .at x k r ctx n, n', h, hr => by
    simp only [EM.run, EM.step] at hr
    split at hr
    · simp at hr
    · rename_i m hm
      split at hm
      · simp at hm
      · rename_i hf
        have hc := not_full_iff.1 hf
        split at hm
        · cases r with
          | cons y k' r' => exact MInv.run fuel m (MInv.emit h hc hm) hr
          | nil =>
            cases ctx with
            | nil =>
              simp only [Except.ok.injEq] at hm
              subst hm
              exact MInv.run fuel (.done n) h hr
            | cons p ctx =>
              obtain ⟨p, K, R⟩ := p
              exact MInv.run fuel m (MInv.emit h.shut (by rw [Nest.shut_count]; exact hc) hm) hr
        · exact MInv.run fuel m (MInv.emit h hc hm) hr

theorem machine_inv {c : ChangeSet} {F : Forest (Lab α)} {n : Nest α}
    (h : c.machine fl F = .ok n) : MInv fl n :=
  MInv.run _ _ (MInv.goto F [] MInv.init) h

end Syntree
