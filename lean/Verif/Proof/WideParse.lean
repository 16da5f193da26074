import Verif.Proof.Wider
import Verif.Proof.CalcRun
import Verif.Proof.MathExpr
import Verif.Proof.Synth

/-!
The parsers of the examples on a builder with a larger index: they behave in the same way, or fail
with `Overflow` because the text they have read is too long for the index.
-/

namespace Syntree

/-- What the two parsers have in common: they hold a builder and the flavor of it. -/
structure View (S α : Type) where
  sys : S → Sys α
  fl : S → Flavor
  setSys : S → Sys α → S
  setFl : S → Flavor → S
  sys_setSys : ∀ p s, sys (setSys p s) = s
  sys_setFl : ∀ p f, sys (setFl p f) = sys p
  fl_setSys : ∀ p s, fl (setSys p s) = fl p
  fl_setFl : ∀ p f, fl (setFl p f) = f
  comm : ∀ p s f, setSys (setFl p f) s = setFl (setSys p s) f

variable {S α β γ : Type} {V : View S α} {a b : Flavor} {i j : Nat}

/-- Where the cursor is. -/
def View.at (V : View S α) (p : S) : Nat := (V.sys p).b.cursor

/-- How many nodes there are. -/
def View.len (V : View S α) (p : S) : Nat := (V.sys p).b.tree.nodes.length

/-- The builder is too large for the flavor `a` with an index of `i` bits. -/
def View.Big (V : View S α) (a : Flavor) (i : Nat) (p : S) : Prop :=
  2 ^ i ≤ V.at p ∨ 2 ^ a.width - 1 ≤ V.len p

theorem View.Big.mono {p p' : S} (h : V.Big a i p) (h1 : V.at p ≤ V.at p')
    (h2 : V.len p ≤ V.len p') : V.Big a i p' := by
  unfold View.Big at *; omega

/-- The function moves the cursor forward, and does the same in both flavors unless the cursor goes
beyond the smaller one. -/
structure Fair (V : View S α) (a b : Flavor) (i : Nat) (f : S → Except Err (β × S)) : Prop where
  mono : ∀ p x p', CurInv (V.sys p).b → f p = .ok (x, p') →
    CurInv (V.sys p').b ∧ V.at p ≤ V.at p' ∧ V.len p ≤ V.len p'
  same : ∀ p, V.fl p = a → CurInv (V.sys p).b → V.at p < 2 ^ i →
    (∃ x p', f p = .ok (x, p') ∧ f (V.setFl p b) = .ok (x, V.setFl p' b) ∧ V.fl p' = a ∧
      V.at p' < 2 ^ i) ∨
    (∃ e, f p = .error e ∧ f (V.setFl p b) = .error e) ∨
    (f p = .error .overflow ∧ ∀ x q, f (V.setFl p b) = .ok (x, q) → V.Big a i q)

theorem View.at_setFl (p : S) (f : Flavor) : V.at (V.setFl p f) = V.at p := by
  unfold View.at; rw [V.sys_setFl]

theorem Fair.bind {x : S → Except Err (β × S)} {f : β → S → Except Err (γ × S)}
    (hx : Fair V a b i x) (hf : ∀ c, Fair V a b i (f c)) :
    Fair V a b i (fun p => match x p with
      | .error e => .error e
      | .ok (c, p) => f c p) := by
  constructor
  · intro p y p' hi h
    split at h
    · simp at h
    · rename_i c p1 e
      obtain ⟨h1, h2, h2'⟩ := hx.mono p c p1 hi e
      obtain ⟨h3, h4, h4'⟩ := (hf c).mono p1 y p' h1 h
      exact ⟨h3, by omega, by omega⟩
  · intro p hfl hi hc
    rcases hx.same p hfl hi hc with ⟨c, p1, e1, e2, h1, h2⟩ | ⟨e, e1, e2⟩ | ⟨e1, h1⟩
    · rw [e1, e2]
      exact (hf c).same p1 h1 (hx.mono p c p1 hi e1).1 h2
    · rw [e1, e2]; exact .inr (.inl ⟨e, rfl, rfl⟩)
    · rw [e1]
      refine .inr (.inr ⟨rfl, ?_⟩)
      intro y q h
      split at h
      · simp at h
      · rename_i c q1 e
        have hi' : CurInv (V.sys (V.setFl p b)).b := by rw [V.sys_setFl]; exact hi
        have := (hf c).mono q1 y q (hx.mono _ c q1 hi' e).1 h
        exact (h1 c q1 e).mono this.2.1 this.2.2

/-- A function that leaves the builder alone. -/
theorem Fair.local {g : S → β} {k : S → S} (h1 : ∀ p, V.sys (k p) = V.sys p)
    (h2 : ∀ p, V.fl (k p) = V.fl p) (h3 : ∀ p f, g (V.setFl p f) = g p)
    (h4 : ∀ p f, k (V.setFl p f) = V.setFl (k p) f) :
    Fair V a b i (fun p => .ok (g p, k p)) := by
  constructor
  · intro p x p' hi h
    simp only [Except.ok.injEq, Prod.mk.injEq] at h
    obtain ⟨_, rfl⟩ := h
    unfold View.at View.len
    rw [h1]
    exact ⟨hi, Nat.le_refl _, Nat.le_refl _⟩
  · intro p hfl hi hc
    refine .inl ⟨g p, k p, rfl, ?_, by rw [h2]; exact hfl, ?_⟩
    · simp only [h3, h4]
    · unfold View.at at *; rw [h1]; exact hc

theorem Fair.pure (c : β) : Fair V a b i (fun p => .ok (c, p)) :=
  Fair.local (V := V) (g := fun _ => c) (k := fun p => p) (fun _ => rfl) (fun _ => rfl)
    (fun _ _ => rfl) (fun _ _ => rfl)

theorem Fair.error (e : Err) : Fair V a b i (fun _ => (.error e : Except Err (β × S))) :=
  ⟨by simp, fun _ _ _ _ => .inr (.inl ⟨e, rfl, rfl⟩)⟩

/-- A function that takes something from the parser, but not from the builder. -/
theorem Fair.given {f : γ → S → Except Err (β × S)} {g : S → γ} (hf : ∀ n, Fair V a b i (f n))
    (hg : ∀ p fl, g (V.setFl p fl) = g p) : Fair V a b i (fun p => f (g p) p) := by
  constructor
  · intro p x p' hi h; exact (hf (g p)).mono p x p' hi h
  · intro p hfl hi hc
    simp only [hg]
    exact (hf (g p)).same p hfl hi hc

/-- A call. -/
theorem Fair.call (w : Wider a b i j) {op : Op α} (ho : op.cursorDriven = true)
    {k : Out → β} :
    Fair V a b i (fun p => match (V.sys p).step (V.fl p) op with
      | (_, .error e) => .error e
      | (s, .ok o) => .ok (k o, V.setSys p s)) := by
  have mono : ∀ p s o, CurInv (V.sys p).b → (V.sys p).step (V.fl p) op = (s, .ok o) →
      CurInv s.b ∧ (V.sys p).b.cursor ≤ s.b.cursor ∧
      (V.sys p).b.tree.nodes.length ≤ s.b.tree.nodes.length := by
    intro p s o hi h
    have := hi.step (fl := V.fl p) ho
    have hg := step_grows (fl := V.fl p) (V.sys p) ho
    rw [h] at this hg
    rcases this with ⟨h1, _⟩ | ⟨h1, h2⟩
    · simp at h1
    · exact ⟨h1, by simp only at h2; omega, hg⟩
  constructor
  · intro p x p' hi h
    split at h
    · simp at h
    · rename_i s o e
      simp only [Except.ok.injEq, Prod.mk.injEq] at h
      obtain ⟨_, rfl⟩ := h
      unfold View.at View.len
      rw [V.sys_setSys]
      exact mono p s o hi e
  · intro p hfl hi hc
    simp only [V.sys_setFl, V.fl_setFl, hfl]
    rcases w.step (V.sys p) op with h | ⟨h1, h2⟩
    · rw [← h]
      cases hr : (V.sys p).step a op with
      | mk s r =>
        cases r with
        | error e => exact .inr (.inl ⟨e, rfl, rfl⟩)
        | ok o =>
          refine .inl ⟨k o, _, rfl, by simp only [V.comm], by rw [V.fl_setSys]; exact hfl, ?_⟩
          unfold View.at at hc ⊢
          rw [V.sys_setSys]
          -- the cursor is moved by a token only, which fits
          have hst := hi.step (fl := a) ho
          rw [hr] at hst
          rcases hst with ⟨h1, _⟩ | ⟨h1, h2⟩
          · simp at h1
          · simp only at h2
            rw [h2]
            split
            · cases op with
              | token d len =>
                simp only [Op.len, w.left, IndexKind.lenIsEmpty]
                split
                · exact hc
                · rename_i hne
                  rcases Nat.lt_or_ge ((V.sys p).b.cursor + len) (2 ^ i) with hlt | hge
                  · exact hlt
                  · exfalso
                    simp only [Sys.step, Sys.lift, Builder.token, w.left, IndexKind.lenIsEmpty,
                      IndexKind.checkedAddLen, hne, if_neg (Nat.not_lt.2 hge)] at hr
                    simp [Except.map] at hr
              | _ => exact hc
            · exact hc
    · refine .inr (.inr ⟨?_, ?_⟩)
      · cases hr : (V.sys p).step a op with
        | mk s r => rw [hr] at h1; simp only at h1; rw [h1]
      · intro x q hq
        split at hq
        · simp at hq
        · rename_i s o e
          simp only [Except.ok.injEq, Prod.mk.injEq] at hq
          obtain ⟨_, rfl⟩ := hq
          unfold View.Big View.at View.len
          rw [V.sys_setSys]
          have hst := hi.step (fl := b) ho
          have hg := step_grows (fl := b) (V.sys p) ho
          rw [e] at hst hg
          rcases h2 with h2 | ⟨_, d, len, rfl, h0, h2, _⟩
          · right; simp only [Tree.len] at h2; simp only at hg; omega
          · left
            rcases hst with ⟨h3, _⟩ | ⟨_, h3⟩
            · simp at h3
            · have hid : (idOf (.ok o : Except Err Out)).isSome = true := by
                have := congrArg (·.2) e
                simp only [Sys.step, Sys.lift] at this
                cases hr : (Builder.token b (V.sys p).b d len).2 with
                | error e => rw [hr] at this; simp [Except.map] at this
                | ok id =>
                  rw [hr] at this
                  simp only [Except.map, Except.ok.injEq] at this
                  rw [← this]; rfl
              simp only at h3
              rw [h3, hid]
              simp only [if_true, Op.len, w.right, IndexKind.lenIsEmpty]
              have : (len == 0) = false := by simpa using h0
              rw [this]
              simpa using h2

/-- What `same` says about a run from the beginning of a text. -/
theorem Fair.start {f : S → Except Err (β × S)} (h : Fair V a b i f) {p : S} (hfl : V.fl p = a)
    (hs : V.sys p = Sys.init) :
    (∃ x p', f p = .ok (x, p') ∧ f (V.setFl p b) = .ok (x, V.setFl p' b) ∧ V.at p' < 2 ^ i) ∨
    (∃ e, f p = .error e ∧ f (V.setFl p b) = .error e) ∨
    (f p = .error .overflow ∧ ∀ x q, f (V.setFl p b) = .ok (x, q) → V.Big a i q) := by
  have hi : CurInv (V.sys p).b := by rw [hs]; exact CurInv.new
  have hc : V.at p < 2 ^ i := by unfold View.at; rw [hs]; exact Nat.two_pow_pos i
  rcases h.same p hfl hi hc with ⟨x, p', h1, h2, _, h3⟩ | h | h
  · exact .inl ⟨x, p', h1, h2, h3⟩
  · exact .inr (.inl h)
  · exact .inr (.inr h)

namespace Calc

/-- The parser of the calculator. -/
def view : View Parser Syn where
  sys p := p.tree
  fl p := p.fl
  setSys p s := { p with tree := s }
  setFl p f := { p with fl := f }
  sys_setSys _ _ := rfl
  sys_setFl _ _ := rfl
  fl_setSys _ _ := rfl
  fl_setFl _ _ := rfl
  comm _ _ _ := rfl

/-- A function of the parser is fair. -/
abbrev F {β : Type} (a b : Flavor) (i : Nat) (f : P β) : Prop := Fair view a b i f

variable (w : Wider a b i j)

theorem F.bind {x : P β} {f : β → P γ} (hx : F a b i x) (hf : ∀ c, F a b i (f c)) :
    F a b i (x >>= f) := by
  refine cast (congrArg _ (funext fun p => ?_)) (Fair.bind hx hf)
  show _ = P.bind x f p
  unfold P.bind
  cases x p <;> rfl

theorem F.pure (c : β) : F a b i (pure c : P β) := Fair.pure c

include w

theorem F.call {op : Op Syn} (ho : op.cursorDriven = true) : F a b i (call op) := by
  refine cast (congrArg _ (funext fun p => ?_)) (Fair.call (V := view) w ho (k := id))
  unfold Calc.call
  rw [show (view.sys p).step (view.fl p) op = p.tree.step p.fl op from rfl]
  obtain ⟨s, e | o⟩ := p.tree.step p.fl op <;> rfl

theorem F.checkpoint : F a b i checkpoint := by
  have h := Fair.bind (F.call w (op := .checkpoint) rfl)
    (f := fun o p => .ok ((match o with | .handle k => k | _ => 0), p)) (fun o => Fair.pure _)
  refine cast (congrArg _ (funext fun p => ?_)) h
  unfold Calc.checkpoint
  cases Calc.call .checkpoint p with
  | error e => rfl
  | ok r => obtain ⟨o, q⟩ := r; cases o <;> rfl

theorem F.fillLoop (fuel : Nat) : F a b i (fillLoop fuel) := by
  induction fuel with
  | zero => exact Fair.error _
  | succ fuel ih =>
    have setL : ∀ l, F a b i (fun p => .ok ((), { p with lexer := l })) := fun l =>
      Fair.local (V := view) (g := fun _ => ()) (k := fun p : Parser => { p with lexer := l })
        (fun _ => rfl) (fun _ => rfl) (fun _ _ => rfl) (fun _ _ => rfl)
    have setB : ∀ l tok, F a b i (fun p => .ok ((), { p with lexer := l, buf := some tok })) :=
      fun l tok => Fair.local (V := view) (g := fun _ => ())
        (k := fun p : Parser => { p with lexer := l, buf := some tok })
        (fun _ => rfl) (fun _ => rfl) (fun _ _ => rfl) (fun _ _ => rfl)
    have h := Fair.given (V := view) (a := a) (b := b) (i := i) (β := Unit)
      (g := fun p : Parser => (p.buf, p.lexer.next))
      (f := fun r p => match r with
        | (some _, _) => .ok ((), p)
        | (none, (l, none)) => .ok ((), { p with lexer := l })
        | (none, (l, some tok)) =>
          if tok.syn = .whitespace then
            (do let _ ← Calc.call (.token tok.syn tok.len); Calc.fillLoop fuel : P Unit)
              { p with lexer := l }
          else .ok ((), { p with lexer := l, buf := some tok })) (by
        rintro ⟨_ | t, l, _ | tok⟩
        · exact setL l
        · by_cases hw : tok.syn = .whitespace
          · simp only [hw, if_true]
            exact Fair.bind (setL l) (fun _ => F.bind (F.call w rfl) (fun _ => ih))
          · simp only [hw, if_false]
            exact setB l tok
        · exact F.pure ()
        · exact F.pure ()) (fun _ _ => rfl)
    refine cast (congrArg _ (funext fun p => ?_)) h
    conv => rhs; unfold Calc.fillLoop
    cases p.buf with
    | some t => rfl
    | none =>
      cases p.lexer.next with
      | mk l t => cases t <;> rfl

theorem F.peek : F a b i peek :=
  F.bind (Fair.given (V := view) (f := fun n p => Calc.fillLoop n p)
      (g := fun p : Parser => p.lexer.source.length + 1) (fun n => F.fillLoop w n) (fun _ _ => rfl))
    (fun _ => Fair.local (V := view) (g := fun p : Parser => p.buf.getD ⟨0, .eof⟩) (k := id)
      (fun _ => rfl) (fun _ => rfl) (fun _ _ => rfl) (fun _ _ => rfl))

theorem F.step : F a b i step :=
  F.bind (F.peek w) (fun tok => Fair.local (V := view) (g := fun _ => tok)
    (k := fun p : Parser => { p with buf := none })
    (fun _ => rfl) (fun _ => rfl) (fun _ _ => rfl) (fun _ _ => rfl))

theorem F.isEof : F a b i isEof := F.bind (F.peek w) (fun _ => F.pure _)

theorem F.eat (what : Syn) : F a b i (eat what) := by
  refine F.bind (F.peek w) (fun tok => ?_)
  split
  · exact F.pure _
  · exact F.bind (F.step w) (fun tok => F.bind (F.call w rfl) (fun _ => F.pure _))

theorem F.token : F a b i token :=
  F.bind (F.step w) (fun _ => F.bind (F.call w rfl) (fun _ => F.pure _))

theorem F.bump (what : Syn) : F a b i (bump what) :=
  F.bind (F.step w) (fun _ => F.bind (F.call w rfl) (fun _ => F.bind (F.call w rfl)
    (fun _ => F.bind (F.call w rfl) (fun _ => F.pure _))))

theorem F.advanceLoop (any : List Syn) (fuel : Nat) : F a b i (advanceLoop any fuel) := by
  induction fuel with
  | zero => exact Fair.error _
  | succ fuel ih =>
    unfold Calc.advanceLoop
    refine F.bind (F.peek w) (fun t => ?_)
    split
    · exact F.pure _
    · exact F.bind (F.call w rfl) (fun _ => F.bind (F.step w) (fun _ => ih))

theorem F.exprs (fuel : Nat) : (∀ min, F a b i (expr fuel min)) ∧
    (∀ min o, F a b i (exprLoop fuel min o)) := by
  induction fuel with
  | zero =>
    constructor
    · intro min; unfold expr; exact Fair.error _
    · intro min o; unfold exprLoop; exact Fair.error _
  | succ fuel ih =>
    constructor
    · intro min
      unfold expr
      refine F.bind (F.peek w) (fun tok => F.bind (F.checkpoint w) (fun c => F.bind ?_ (fun go => ?_)))
      · split
        · refine F.bind (F.token w) (fun _ => F.bind (F.checkpoint w) (fun c => F.bind (ih.1 0)
            (fun _ => F.bind (F.call w rfl) (fun _ => F.bind (F.eat w _) (fun closed => ?_)))))
          split
          · exact F.bind (F.bump w _) (fun _ => F.pure _)
          · exact F.pure _
        · exact F.bind (F.bump w _) (fun _ => F.pure _)
        · exact F.bind (F.bump w _) (fun _ => F.pure _)
      · split
        · refine F.bind (ih.2 min false) (fun o => ?_)
          split
          · exact F.bind (F.call w rfl) (fun _ => F.pure _)
          · exact F.pure _
        · exact F.pure _
    · intro min o
      unfold exprLoop
      refine F.bind (F.peek w) (fun tok => ?_)
      split
      · split
        · exact F.bind (F.bump w _) (fun _ => F.bind (ih.1 _) (fun _ => ih.2 _ _))
        · exact F.pure _
      · exact F.pure _

theorem F.rootLoop (fuel : Nat) : F a b i (rootLoop fuel) := by
  induction fuel with
  | zero => exact Fair.error _
  | succ fuel ih =>
    unfold Calc.rootLoop
    refine F.bind (Fair.given (V := view) (f := fun n p => expr n 0 p) (g := fuelFor)
      (fun n => (F.exprs w n).1 0) (fun _ _ => rfl)) (fun _ => F.bind (F.isEof w) (fun eof => ?_))
    split
    · exact F.pure _
    · exact F.bind (F.checkpoint w) (fun c => F.bind
        (Fair.given (V := view) (f := fun n p => Calc.advanceLoop [.number] n p)
          (g := fun p : Parser => p.lexer.source.length + 2) (fun n => F.advanceLoop w _ n)
          (fun _ _ => rfl)) (fun _ => F.bind (F.call w rfl) (fun _ => ih)))

theorem F.root : F a b i root :=
  Fair.given (V := view) (f := fun n p => Calc.rootLoop n p)
    (g := fun p : Parser => p.lexer.source.length + 1) (fun n => F.rootLoop w n) (fun _ _ => rfl)

end Calc

namespace Math

/-- The parser of the math example. -/
def view : View Parser Syn where
  sys p := p.builder
  fl p := p.fl
  setSys p s := { p with builder := s }
  setFl p f := { p with fl := f }
  sys_setSys _ _ := rfl
  sys_setFl _ _ := rfl
  fl_setSys _ _ := rfl
  fl_setFl _ _ := rfl
  comm _ _ _ := rfl

/-- A function of the parser is fair. -/
abbrev F {β : Type} (a b : Flavor) (i : Nat) (f : P β) : Prop := Fair view a b i f

variable (w : Wider a b i j)

theorem F.bind {x : P β} {f : β → P γ} (hx : F a b i x) (hf : ∀ c, F a b i (f c)) :
    F a b i (x >>= f) := by
  refine cast (congrArg _ (funext fun p => ?_)) (Fair.bind hx hf)
  show _ = P.bind x f p
  unfold P.bind
  cases x p <;> rfl

theorem F.pure (c : β) : F a b i (pure c : P β) := Fair.pure c

theorem F.look : F a b i look :=
  Fair.local (V := view) (g := fun p : Parser => p.iter.peek.2)
    (k := fun p : Parser => { p with iter := p.iter.peek.1 })
    (fun _ => rfl) (fun _ => rfl) (fun _ _ => rfl) (fun _ _ => rfl)

theorem F.advance : F a b i advance :=
  Fair.local (V := view) (g := fun p : Parser => p.iter.next.2)
    (k := fun p : Parser => { p with iter := p.iter.next.1 })
    (fun _ => rfl) (fun _ => rfl) (fun _ _ => rfl) (fun _ _ => rfl)

include w

theorem F.call {op : Op Syn} (ho : op.cursorDriven = true) : F a b i (call op) := by
  refine cast (congrArg _ (funext fun p => ?_)) (Fair.call (V := view) w ho (k := id))
  unfold Math.call
  rw [show (view.sys p).step (view.fl p) op = p.builder.step p.fl op from rfl]
  obtain ⟨s, e | o⟩ := p.builder.step p.fl op <;> rfl

theorem F.checkpoint : F a b i checkpoint := by
  have h := Fair.bind (F.call w (op := .checkpoint) rfl)
    (f := fun o p => .ok ((match o with | .handle k => k | _ => 0), p)) (fun o => Fair.pure _)
  refine cast (congrArg _ (funext fun p => ?_)) h
  unfold Math.checkpoint
  cases Math.call .checkpoint p with
  | error e => rfl
  | ok r => obtain ⟨o, q⟩ := r; cases o <;> rfl

theorem F.bump : F a b i bump := by
  refine F.bind F.advance (fun t => ?_)
  split
  · exact F.bind (F.call w rfl) (fun _ => F.pure _)
  · exact F.pure _

theorem F.skipLoop (fuel : Nat) : F a b i (skipLoop fuel) := by
  induction fuel with
  | zero => exact Fair.error _
  | succ fuel ih =>
    unfold Math.skipLoop
    refine F.bind F.look (fun t => ?_)
    split
    · exact F.bind (F.bump w) (fun _ => ih)
    · exact F.pure _

theorem F.peek : F a b i peek :=
  F.bind (Fair.given (V := view) (f := fun n p => Math.skipLoop n p) (g := fuelFor)
    (fun n => F.skipLoop w n) (fun _ _ => rfl)) (fun _ => F.bind F.look (fun _ => F.pure _))

theorem F.parseVal : F a b i parseVal := by
  refine F.bind (F.peek w) (fun t => ?_)
  split
  · exact F.bump w
  · exact F.bind (F.call w rfl) (fun _ => F.bind (F.bump w) (fun _ => F.bind (F.call w rfl)
      (fun _ => F.pure _)))

theorem F.operationLoop {tokens : List Syn} {next : P Unit} (hn : F a b i next) (c fuel : Nat) :
    F a b i (operationLoop tokens next c fuel) := by
  induction fuel with
  | zero => exact Fair.error _
  | succ fuel ih =>
    unfold Math.operationLoop
    refine F.bind (F.peek w) (fun t => ?_)
    split
    · split
      · exact F.bind (F.bump w) (fun _ => F.bind hn (fun _ => F.bind (F.call w rfl) (fun _ => ih)))
      · exact F.pure _
    · exact F.pure _

theorem F.handleOperation {tokens : List Syn} {next : P Unit} (hn : F a b i next) :
    F a b i (handleOperation tokens next) :=
  F.bind (F.checkpoint w) (fun c => F.bind hn (fun _ =>
    Fair.given (V := view) (f := fun n p => Math.operationLoop tokens next c n p) (g := fuelFor)
      (fun n => F.operationLoop w hn c n) (fun _ _ => rfl)))

theorem F.parseRoot : F a b i parseRoot :=
  F.bind (F.call w rfl) (fun _ => F.bind
    (F.handleOperation w (F.handleOperation w (F.parseVal w)))
    (fun _ => F.bind (F.call w rfl) (fun _ => F.pure _)))

end Math

end Syntree
