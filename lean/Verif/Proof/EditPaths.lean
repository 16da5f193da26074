import Verif.Proof.EditRun

/-! The copying machine only copies: every path of the output is one of the input. -/

namespace Syntree

variable {α : Type} {fl : Flavor}

open Forest

/-- The paths of values of a nested list of nodes. -/
def dpaths (up : List α) (F : Forest (Lab α)) : List (List α) := (F.map (·.data)).pathsUp up

@[simp] theorem dpaths_nil (up : List α) : dpaths up (.nil : Forest (Lab α)) = [] := rfl
@[simp] theorem dpaths_cons (up : List α) (x : Lab α) (k r : Forest (Lab α)) :
    dpaths up (.cons x k r) = (x.data :: up) :: (dpaths (x.data :: up) k ++ dpaths up r) := rfl
@[simp] theorem dpaths_append (up : List α) (F G : Forest (Lab α)) :
    dpaths up (F ++ G) = dpaths up F ++ dpaths up G := by
  induction F with
  | nil => rfl
  | cons x k r _ ih => simp [ih]

def StackIn (A : List (List α)) : Stack α → Prop
  | [] => True
  | (x, left) :: st => (x.data :: st.map (·.1.data)) ∈ A ∧ (∀ p ∈ dpaths (st.map (·.1.data)) left, p ∈ A) ∧
      StackIn A st

def CtxIn (A : List (List α)) : ECtx α → Prop
  | [] => True
  | (x, K, R) :: ctx => (∀ p ∈ dpaths (ctx.map (·.1.data)) (.cons x K R), p ∈ A) ∧ CtxIn A ctx

/-- The output so far, with the open nodes being copies of `ctx`. -/
structure NestIn (A : List (List α)) (n : Nest α) (ctx : ECtx α) : Prop where
  stack : n.stack.map (·.1.data) = ctx.map (·.1.data)
  left : StackIn A n.stack
  cur : ∀ p ∈ dpaths (ctx.map (·.1.data)) n.cur, p ∈ A

def EM.In (A : List (List α)) : EM α → Prop
  | .done n => NestIn A n []
  | .at x k r ctx n => NestIn A n ctx ∧ (∀ p ∈ dpaths (ctx.map (·.1.data)) (.cons x k r), p ∈ A) ∧
      CtxIn A ctx

theorem endParent_data (c : Nat) (st : Stack α) :
    (Nest.endParent c st).map (·.1.data) = st.map (·.1.data) := by
  cases st <;> rfl

theorem StackIn.endParent {A : List (List α)} {st : Stack α} (h : StackIn A st) (c : Nat) :
    StackIn A (Nest.endParent c st) := by
  cases st <;> exact h

theorem NestIn.shut {A : List (List α)} {n : Nest α} {e : Lab α × Forest (Lab α) × Forest (Lab α)}
    {ctx : ECtx α} (h : NestIn A n (e :: ctx)) : NestIn A n.shut ctx := by
  obtain ⟨h1, h2, h3⟩ := h
  unfold Nest.shut
  cases hs : n.stack with
  | nil => rw [hs] at h1; simp at h1
  | cons p st =>
    obtain ⟨x, left⟩ := p
    rw [hs] at h1 h2
    simp only [List.map_cons, List.cons.injEq] at h1 h3
    obtain ⟨h2a, h2b, h2c⟩ := h2
    refine ⟨h1.2, h2c, ?_⟩
    intro p hp
    simp only [dpaths_append, dpaths_cons, dpaths_nil, List.append_nil, List.mem_append,
      List.mem_cons] at hp
    rw [← h1.2] at hp h3
    rcases hp with hp | rfl | hp
    · exact h2b p hp
    · exact h2a
    · rw [h1.1] at hp; exact h3 p hp

theorem leave_in {A : List (List α)} : ∀ (ctx : ECtx α) {n : Nest α}, NestIn A n ctx → CtxIn A ctx →
    (EM.leave ctx n).In A
  | [], _, h, _ => h
  | (_, _, .nil) :: ctx, _, h, hc => leave_in ctx h.shut hc.2
  | (_, _, .cons _ _ _) :: _, _, h, hc => by
    refine ⟨h.shut, ?_, hc.2⟩
    intro p hp
    refine hc.1 p ?_
    rw [dpaths_cons]
    exact List.mem_cons_of_mem _ (List.mem_append_right _ hp)

theorem goto_in {A : List (List α)} {F : Forest (Lab α)} {ctx : ECtx α} {n : Nest α}
    (h : NestIn A n ctx) (hc : CtxIn A ctx) (hF : ∀ p ∈ dpaths (ctx.map (·.1.data)) F, p ∈ A) :
    (EM.goto F ctx n).In A := by
  cases F with
  | nil => exact leave_in ctx h hc
  | cons => exact ⟨h, hF, hc⟩

theorem emit_in {A : List (List α)} {x : Lab α} {k r : Forest (Lab α)} {ctx : ECtx α} {n : Nest α}
    {m : EM α} (h : NestIn A n ctx) (hc : CtxIn A ctx)
    (hF : ∀ p ∈ dpaths (ctx.map (·.1.data)) (.cons x k r), p ∈ A)
    (hm : EM.emit fl x k r ctx n = .ok m) : m.In A := by
  obtain ⟨h1, h2, h3⟩ := h
  unfold EM.emit at hm
  cases k with
  | nil =>
    simp only at hm
    cases ha : advance fl.ik n.cursor x.span with
    | none => rw [ha] at hm; simp at hm
    | some c =>
      rw [ha] at hm
      simp only [Except.ok.injEq] at hm
      subst hm
      refine goto_in ⟨?_, h2.endParent _, ?_⟩ hc ?_
      · show (Nest.endParent _ n.stack).map _ = _
        rw [endParent_data]; exact h1
      · intro p hp
        simp only [Nest.addLeaf, dpaths_append, List.mem_append] at hp
        rcases hp with hp | hp
        · exact h3 p hp
        · simp only [dpaths_cons, dpaths_nil, List.append_nil, List.mem_singleton] at hp
          subst hp
          exact hF _ (by simp)
      · intro p hp; exact hF p (by simp [hp])
  | cons y k' r' =>
    simp only [Except.ok.injEq] at hm
    subst hm
    refine ⟨⟨?_, ⟨?_, ?_, h2.endParent _⟩, by simp [Nest.addOpen]⟩, ?_, hF, hc⟩
    · show x.data :: (Nest.endParent _ n.stack).map _ = _
      rw [endParent_data, h1]; rfl
    · show x.data :: (Nest.endParent _ n.stack).map _ ∈ A
      rw [endParent_data, h1]
      exact hF _ (by simp)
    · intro p hp
      rw [endParent_data, h1] at hp
      exact h3 p hp
    · intro p hp
      refine hF p ?_
      rw [dpaths_cons]
      exact List.mem_cons_of_mem _ (List.mem_append_left _ hp)

theorem run_in {A : List (List α)} {S : List Nat} : ∀ (fuel : Nat) (m : EM α) {n : Nest α}, m.In A →
    EM.run fl S fuel m = .ok n → NestIn A n []
  | 0, _, _, _, h => by simp [EM.run] at h
  | fuel + 1, .done n, n', h, hr => by
    simp only [EM.run, Except.ok.injEq] at hr
    subst hr; exact h
  | fuel + 1, .at x k r ctx n, n', h, hr => by
    obtain ⟨h1, h2, h3⟩ := h
    simp only [EM.run, EM.step] at hr
    by_cases hf : n.full fl = true
    · rw [if_pos hf] at hr; simp at hr
    · rw [if_neg hf] at hr
      by_cases hS : n.count ∈ S
      · rw [if_pos hS] at hr
        cases r with
        | cons y k' r' =>
          simp only at hr
          cases he : EM.emit fl y k' r' ctx n with
          | error e => rw [he] at hr; simp at hr
          | ok m =>
            rw [he] at hr
            refine run_in fuel m (emit_in h1 h3 (fun p hp => h2 p ?_) he) hr
            rw [dpaths_cons]
            exact List.mem_cons_of_mem _ (List.mem_append_right _ hp)
        | nil =>
          cases ctx with
          | nil => exact run_in fuel (.done n) h1 hr
          | cons p ctx =>
            obtain ⟨p, K, R⟩ := p
            simp only at hr
            cases he : EM.emit fl p K R ctx n.shut with
            | error e => rw [he] at hr; simp at hr
            | ok m =>
              rw [he] at hr
              exact run_in fuel m (emit_in h1.shut h3.2 h3.1 he) hr
      · rw [if_neg hS] at hr
        cases he : EM.emit fl x k r ctx n with
        | error e => rw [he] at hr; simp at hr
        | ok m =>
          rw [he] at hr
          exact run_in fuel m (emit_in h1 h3 h2 he) hr

theorem machine_in {c : ChangeSet} {F : Forest (Lab α)} {n : Nest α} (h : c.machine fl F = .ok n) :
    n.stack = [] ∧ ∀ p ∈ dpaths [] n.cur, p ∈ dpaths [] F := by
  obtain ⟨h1, _, h3⟩ := run_in (A := dpaths [] F) _ _
    (goto_in (F := F) (ctx := []) (n := Nest.init) ⟨rfl, trivial, by simp [Nest.init]⟩ trivial
      (fun p hp => hp)) h
  refine ⟨?_, h3⟩
  simpa using h1

end Syntree
