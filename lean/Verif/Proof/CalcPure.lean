import Verif.Proof.Client
import Verif.Proof.CalcLex

/-! The parser of the calculator on lists of tokens and nested lists. -/

namespace Syntree.Calc

open Forest

/-- The level built so far, the cursor, and the tokens that are left. -/
structure St where
  lev : Lev Syn
  toks : List Token

/-- Take whitespace. -/
def skipWs : Lev Syn → List Token → St
  | L, [] => ⟨L, []⟩
  | L, t :: ts => if t.syn = .whitespace then skipWs (L.tok t.syn t.len) ts else ⟨L, t :: ts⟩

def St.skip (s : St) : St := skipWs s.lev s.toks

def St.head (s : St) : Token := s.toks.headD ⟨0, .eof⟩

def St.take (s : St) : St := ⟨s.lev.tok s.head.syn s.head.len, s.toks.tail⟩

def St.bump (s : St) (what : Syn) : St :=
  ⟨⟨s.lev.cur ++ single (what, ⟨s.lev.pos, s.lev.pos + s.head.len⟩)
    (leaf (s.head.syn, ⟨s.lev.pos, s.lev.pos + s.head.len⟩)), s.lev.pos + s.head.len⟩, s.toks.tail⟩

def St.wrap (s : St) (p : Nat) (d : Syn) : St := ⟨s.lev.wrap p d, s.toks⟩

def St.width (s : St) : Nat := s.lev.cur.width

/-- The end of `expr`: wrap if there was an operator. -/
def finish (w : Nat) : Option (Bool × St) → Option St
  | none => none
  | some (o, s) => some (if o then s.wrap w .operation else s)

mutual
def pexpr : Nat → Nat → St → Option St
  | 0, _, _ => none
  | fuel + 1, min, s =>
    if s.skip.head.syn = .openParen then
      match pexpr fuel 0 s.skip.take with
      | none => none
      | some s2 =>
        if (s2.wrap s.skip.take.width .group).skip.head.syn = .closeParen then
          finish s.skip.width
            (ploop fuel min false (s2.wrap s.skip.take.width .group).skip.take)
        else some ((s2.wrap s.skip.take.width .group).skip.bump .error)
    else if s.skip.head.syn = .number then
      finish s.skip.width (ploop fuel min false (s.skip.bump .number))
    else some (s.skip.bump .error)
def ploop : Nat → Nat → Bool → St → Option (Bool × St)
  | 0, _, _, _ => none
  | fuel + 1, min, o, s =>
    match op s.skip.head.syn with
    | none => some (o, s.skip)
    | some (left, right) =>
      if left ≥ min then
        match pexpr fuel right (s.skip.bump .operator) with
        | none => none
        | some s2 => ploop fuel min true s2
      else some (o, s.skip)
end

/-- Take everything up to a number. -/
def padv : Lev Syn → List Token → St
  | L, [] => ⟨L, []⟩
  | L, t :: ts => if t.syn = .number then ⟨L, t :: ts⟩ else padv (L.tok t.syn t.len) ts

def proot (F : Nat) : Nat → St → Option St
  | 0, _ => none
  | fuel + 1, s =>
    match pexpr F 0 s with
    | none => none
    | some s1 =>
      if s1.skip.toks = [] then some s1.skip
      else proot F fuel ((padv s1.skip.lev s1.skip.toks).wrap s1.skip.width .error)

/-! ## Nested lists that tile a stretch of the source -/

theorem Tiles.append {α : Type} {F G : Forest (α × Span)} {a b c : Nat} (h1 : Tiles F a b)
    (h2 : Tiles G b c) : Tiles (F ++ G) a c := by
  induction F generalizing a with
  | nil => cases h1; exact h2
  | cons x k r _ ih =>
    obtain ⟨m, e, l, hk, hr⟩ := h1
    exact ⟨m, e, l, hk, ih hr⟩

theorem Tiles.le {α : Type} {F : Forest (α × Span)} {a b : Nat} (h : Tiles F a b) : a ≤ b := by
  induction F generalizing a with
  | nil => cases h; exact Nat.le_refl _
  | cons x k r _ ih =>
    obtain ⟨m, e, l, hk, hr⟩ := h
    have := ih hr
    omega

theorem Tiles.last {α : Type} {F : Forest (α × Span)} {a b : Nat} (h : Tiles F a b) (hn : F ≠ .nil) :
    (F.last?.map (·.2.stop)).getD 0 = b := by
  induction F generalizing a with
  | nil => exact absurd rfl hn
  | cons x k r _ ih =>
    obtain ⟨m, e, l, hk, hr⟩ := h
    cases r with
    | nil => cases hr; simp [last?, e]
    | cons y k' r' =>
      have := ih hr (by simp)
      simpa [last?] using this

theorem Tiles.stretch {α : Type} {F : Forest (α × Span)} {a b : Nat} (h : Tiles F a b) (hn : F ≠ .nil) :
    stretchC F = ⟨a, b⟩ := by
  unfold stretchC
  rw [h.last hn]
  cases F with
  | nil => exact absurd rfl hn
  | cons x k r => obtain ⟨m, e, _⟩ := h; simp [head?, e]

/-- The number of bytes of a list of tokens. -/
def lens (ts : List Token) : Nat := (ts.map (·.len)).sum

@[simp] theorem lens_nil : lens [] = 0 := rfl
@[simp] theorem lens_cons (t : Token) (ts : List Token) : lens (t :: ts) = t.len + lens ts := by
  simp [lens]
theorem lens_append (a b : List Token) : lens (a ++ b) = lens a + lens b := by simp [lens]

theorem lay_append (a : Nat) (ts us : List Token) :
    lay a (ts ++ us) = lay a ts ++ lay (a + lens ts) us := by
  induction ts generalizing a with
  | nil => simp [lay]
  | cons t ts ih => simp only [List.cons_append, lay, ih, lens_cons, Nat.add_assoc]

theorem leaves_append {α : Type} (F G : Forest (α × Span)) : (F ++ G).leaves = F.leaves ++ G.leaves := by
  induction F with
  | nil => rfl
  | cons x k r _ ih =>
    cases k with
    | nil => simp only [cons_append, leaves, ih, List.cons_append]
    | cons y k' r' => simp only [cons_append, leaves, ih, List.append_assoc]

theorem solid_append {α : Type} (F G : Forest (α × Span)) : solid (F ++ G) = solid F ++ solid G := by
  simp [solid, leaves_append]

theorem leaves_single {α : Type} {x : α × Span} {k : Forest (α × Span)} (h : k ≠ .nil) :
    (single x k).leaves = k.leaves := by
  cases k with
  | nil => exact absurd rfl h
  | cons y k' r' => simp [leaves]

/-- From `s` to `s'`: some tokens have been taken and turned into nodes. -/
structure Ext (s s' : St) (G : Forest (Syn × Span)) (used : List Token) : Prop where
  cur : s'.lev.cur = s.lev.cur ++ G
  toks : s.toks = used ++ s'.toks
  pos : s'.lev.pos = s.lev.pos + lens used
  tiles : Tiles G s.lev.pos s'.lev.pos
  solid : (∀ t ∈ s.toks, t.len ≠ 0) → solid G = lay s.lev.pos used

theorem Ext.refl (s : St) : Ext s s .nil [] := ⟨by simp, rfl, rfl, rfl, fun _ => rfl⟩

theorem Ext.trans {s s' s'' : St} {G G' : Forest (Syn × Span)} {u u' : List Token}
    (h : Ext s s' G u) (h' : Ext s' s'' G' u') : Ext s s'' (G ++ G') (u ++ u') := by
  refine ⟨by rw [h'.cur, h.cur, Forest.append_assoc], by rw [h.toks, h'.toks, List.append_assoc],
    by rw [h'.pos, h.pos, lens_append]; omega, h.tiles.append h'.tiles, ?_⟩
  intro hp
  rw [solid_append, h.solid hp, h'.solid (fun t ht => hp t (by rw [h.toks]; simp [ht])), lay_append,
    h.pos]

theorem Ext.skipWs (L : Lev Syn) (ts : List Token) :
    ∃ G u, Ext ⟨L, ts⟩ (skipWs L ts) G u ∧ ∀ t ∈ u, t.syn = .whitespace := by
  induction ts generalizing L with
  | nil => exact ⟨.nil, [], Ext.refl _, by simp⟩
  | cons t ts ih =>
    unfold Calc.skipWs
    split
    · rename_i hw
      obtain ⟨G, u, h, hu⟩ := ih (L.tok t.syn t.len)
      have h1 : Ext ⟨L, t :: ts⟩ ⟨L.tok t.syn t.len, ts⟩
          (leaf (t.syn, ⟨L.pos, L.pos + t.len⟩)) [t] := by
        refine ⟨rfl, rfl, by simp [Lev.tok], ⟨_, rfl, by simp, fun h => absurd rfl h, rfl⟩, ?_⟩
        intro hp
        have := hp t (by simp)
        simp [Calc.solid, leaves, lay, this]
      refine ⟨_, _, h1.trans h, ?_⟩
      intro x hx
      rcases List.mem_append.1 hx with hx | hx
      · rw [List.mem_singleton.1 hx]; exact hw
      · exact hu x hx
    · exact ⟨.nil, [], Ext.refl _, by simp⟩

theorem Ext.skip (s : St) : ∃ G u, Ext s s.skip G u ∧ ∀ t ∈ u, t.syn = .whitespace :=
  Ext.skipWs s.lev s.toks

theorem Ext.take (s : St) (h : s.toks ≠ []) :
    Ext s s.take (leaf (s.head.syn, ⟨s.lev.pos, s.lev.pos + s.head.len⟩)) [s.head] := by
  cases s with
  | mk L ts => cases ts with
    | nil => exact absurd rfl h
    | cons t ts =>
      refine ⟨rfl, rfl, by simp [St.take, St.head, Lev.tok],
        ⟨_, rfl, by simp, fun h => absurd rfl h, rfl⟩, ?_⟩
      intro hp
      have := hp t (by simp)
      simp [Calc.solid, leaves, lay, this, St.head]

/-- The node `bump` makes. -/
def bumped (s : St) (what : Syn) : Forest (Syn × Span) :=
  single (what, ⟨s.lev.pos, s.lev.pos + s.head.len⟩)
    (leaf (s.head.syn, ⟨s.lev.pos, s.lev.pos + s.head.len⟩))

theorem Ext.bump (s : St) (what : Syn) :
    Ext s (s.bump what) (bumped s what) (s.toks.take 1) := by
  cases s with
  | mk L ts =>
    refine ⟨rfl, by cases ts <;> simp [St.bump], by cases ts <;> simp [St.bump, St.head], ?_, ?_⟩
    · exact ⟨_, rfl, by simp, fun _ => ⟨_, rfl, by simp, fun h => absurd rfl h, rfl⟩, rfl⟩
    · intro hp
      cases ts with
      | nil => simp [Calc.solid, leaves, lay, St.head, bumped]
      | cons t ts =>
        have := hp t (by simp)
        simp [Calc.solid, leaves, lay, this, St.head, bumped]

/-- The node `wrap` makes of `G`. -/
def wrapped (G : Forest (Syn × Span)) (d : Syn) (a b : Nat) : Forest (Syn × Span) :=
  single (d, ⟨a, b⟩) G

theorem take_append_width {β : Type} (F G : Forest β) : (F ++ G).take F.width = F := by
  induction F with
  | nil => cases G <;> rfl
  | cons x k r _ ih =>
    have : (cons x k r).width = r.width + 1 := by simp [width]; omega
    rw [this, cons_append, Forest.take, ih]

theorem drop_append_width {β : Type} (F G : Forest β) : (F ++ G).drop F.width = G := by
  induction F with
  | nil => cases G <;> rfl
  | cons x k r _ ih =>
    have : (cons x k r).width = r.width + 1 := by simp [width]; omega
    rw [this, cons_append, Forest.drop, ih]

theorem Ext.wrap {s s' : St} {G : Forest (Syn × Span)} {u : List Token} (h : Ext s s' G u)
    (d : Syn) : Ext s (s'.wrap s.width d) (wrapped G d s.lev.pos s'.lev.pos) u := by
  unfold St.wrap Lev.wrap St.width wrapped
  rw [h.cur, drop_append_width, take_append_width]
  cases hG : G with
  | nil =>
    have hu : s'.lev.pos = s.lev.pos := by have := h.tiles; rw [hG] at this; exact this.symm
    simp only [isNil_nil, if_true, hu]
    refine ⟨by simp, h.toks, by rw [← h.pos, hu], ⟨_, rfl, by simp, fun h => absurd rfl h, rfl⟩, ?_⟩
    intro hp
    have := h.solid hp
    rw [hG] at this
    rw [← this]
    simp [Calc.solid, leaves]
  | cons x k r =>
    rw [← hG]
    have hn : G ≠ .nil := by rw [hG]; simp
    have hi : G.isNil = false := by rw [hG]; rfl
    simp only [hi, Bool.false_eq_true, if_false]
    refine ⟨by simp [h.tiles.stretch hn], h.toks, h.pos,
      ⟨_, rfl, h.tiles.le, fun _ => h.tiles, rfl⟩, ?_⟩
    intro hp
    rw [← h.solid hp]
    unfold Calc.solid
    rw [leaves_single hn]

/-! ## What `expr` does, roughly -/

theorem skip_head_ne {s : St} : s.skip.head.syn ≠ .whitespace := by
  have : ∀ (ts : List Token) (L : Lev Syn), (skipWs L ts).head.syn ≠ .whitespace := by
    intro ts
    induction ts with
    | nil => intro L; simp [skipWs, St.head]
    | cons t ts ih =>
      intro L
      unfold skipWs
      split
      · exact ih _
      · rename_i h; exact h
  exact this s.toks s.lev

theorem head_toks {s : St} {k : Syn} (h : s.head.syn = k) (hk : k ≠ .eof) : s.toks ≠ [] := by
  intro e
  simp [St.head, e] at h
  exact hk h.symm

theorem toks_eq_head {s : St} (h : s.toks ≠ []) : s.toks = s.head :: s.toks.tail := by
  unfold St.head
  cases hs : s.toks with
  | nil => exact absurd hs h
  | cons t ts => rfl

theorem finish_some {w : Nat} {r : Option (Bool × St)} {s' : St} (h : finish w r = some s') :
    ∃ o s, r = some (o, s) ∧ s' = if o then s.wrap w .operation else s := by
  cases r with
  | none => simp [finish] at h
  | some x => obtain ⟨o, s⟩ := x; exact ⟨o, s, rfl, by simpa [finish] using h.symm⟩

/-- Both functions only take tokens and add nodes. -/
theorem pexpr_ext (fuel : Nat) :
    (∀ (min : Nat) (s s' : St), pexpr fuel min s = some s' → ∃ G u, Ext s s' G u) ∧
    (∀ (min : Nat) (o o' : Bool) (s s' : St), ploop fuel min o s = some (o', s') →
      ∃ G u, Ext s s' G u) := by
  induction fuel with
  | zero => exact ⟨by simp [pexpr], by simp [ploop]⟩
  | succ fuel ih =>
    obtain ⟨ih1, ih2⟩ := ih
    have fin : ∀ {s s1 s' : St} {G : Forest (Syn × Span)} {u : List Token} {min : Nat},
        Ext s s1 G u → finish s.width (ploop fuel min false s1) = some s' →
        ∃ G u, Ext s s' G u := by
      intro s s1 s' G u min h hf
      obtain ⟨o, s2, e, rfl⟩ := finish_some hf
      obtain ⟨G2, u2, h2⟩ := ih2 _ _ _ _ _ e
      have h3 := h.trans h2
      cases o with
      | false => exact ⟨_, _, h3⟩
      | true => exact ⟨_, _, h3.wrap .operation⟩
    constructor
    · intro min s s' h
      obtain ⟨G0, u0, h0, _⟩ := Ext.skip s
      have lift : (∃ G u, Ext s.skip s' G u) → ∃ G u, Ext s s' G u := by
        rintro ⟨G, u, h⟩; exact ⟨_, _, h0.trans h⟩
      apply lift
      rw [pexpr] at h
      split at h
      · rename_i hk
        have t1 := Ext.take s.skip (head_toks hk (by simp))
        split at h
        · simp at h
        · rename_i s2 e2
          obtain ⟨G2, u2, h2⟩ := ih1 _ _ _ e2
          have h3 := t1.trans (h2.wrap .group)
          obtain ⟨G4, u4, h4, _⟩ := Ext.skip (s2.wrap s.skip.take.width .group)
          have h5 := h3.trans h4
          split at h
          · rename_i hc
            exact fin (h5.trans (Ext.take _ (head_toks hc (by simp)))) h
          · simp only [Option.some.injEq] at h
            subst h
            exact ⟨_, _, h5.trans (Ext.bump _ _)⟩
      · split at h
        · exact fin (Ext.bump s.skip .number) h
        · simp only [Option.some.injEq] at h
          subst h
          exact ⟨_, _, Ext.bump _ _⟩
    · intro min o o' s s' h
      obtain ⟨G0, u0, h0, _⟩ := Ext.skip s
      rw [ploop] at h
      split at h
      · simp only [Option.some.injEq, Prod.mk.injEq] at h
        rw [← h.2]; exact ⟨_, _, h0⟩
      · split at h
        · split at h
          · simp at h
          · rename_i s2 e2
            obtain ⟨G2, u2, h2⟩ := ih1 _ _ _ e2
            obtain ⟨G3, u3, h3⟩ := ih2 _ _ _ _ _ h
            exact ⟨_, _, ((h0.trans (Ext.bump _ _)).trans h2).trans h3⟩
        · simp only [Option.some.injEq, Prod.mk.injEq] at h
          rw [← h.2]; exact ⟨_, _, h0⟩

theorem Ext.length {s s' : St} {G : Forest (Syn × Span)} {u : List Token} (h : Ext s s' G u) :
    s'.toks.length ≤ s.toks.length := by
  have := congrArg List.length h.toks
  simp at this; omega

theorem skip_length (s : St) : s.skip.toks.length ≤ s.toks.length := by
  obtain ⟨G, u, h, _⟩ := Ext.skip s; exact h.length

theorem tail_length {s : St} (h : s.toks ≠ []) : s.toks.tail.length + 1 = s.toks.length := by
  cases hs : s.toks with
  | nil => exact absurd hs h
  | cons t ts => simp

theorem op_toks {s : St} {r : Nat × Nat} (h : op s.head.syn = some r) : s.toks ≠ [] := by
  intro e
  simp [St.head, e, op] at h

/-- There is enough fuel. -/
theorem pexpr_total (fuel : Nat) :
    (∀ (min : Nat) (s : St), 2 * s.toks.length + 2 ≤ fuel → ∃ s', pexpr fuel min s = some s') ∧
    (∀ (min : Nat) (o : Bool) (s : St), 2 * s.toks.length + 1 ≤ fuel →
      ∃ r, ploop fuel min o s = some r) := by
  induction fuel with
  | zero => exact ⟨by intro _ _ h; omega, by intro _ _ _ h; omega⟩
  | succ fuel ih =>
    obtain ⟨ih1, ih2⟩ := ih
    have fin : ∀ (w min : Nat) (s : St), 2 * s.toks.length + 1 ≤ fuel →
        ∃ s', finish w (ploop fuel min false s) = some s' := by
      intro w min s hf
      obtain ⟨⟨o, s2⟩, e⟩ := ih2 min false s hf
      rw [e]; exact ⟨_, rfl⟩
    constructor
    · intro min s hf
      have hs := skip_length s
      rw [pexpr]
      split
      · rename_i hk
        have hne := head_toks hk (by simp)
        have ht := tail_length hne
        obtain ⟨s2, e2⟩ := ih1 0 s.skip.take (by simp only [St.take]; omega)
        obtain ⟨G, u, hx⟩ := (pexpr_ext fuel).1 _ _ _ e2
        have hl := hx.length
        simp only [St.take] at hl
        rw [e2]
        simp only
        split
        · apply fin
          have h3 := skip_length (s2.wrap s.skip.take.width .group)
          simp only [St.wrap] at h3
          simp only [St.take, St.wrap, List.length_tail] at *
          omega
        · exact ⟨_, rfl⟩
      · split
        · rename_i hk
          have ht := tail_length (head_toks hk (by simp))
          apply fin
          simp only [St.bump]; omega
        · exact ⟨_, rfl⟩
    · intro min o s hf
      have hs := skip_length s
      rw [ploop]
      split
      · exact ⟨_, rfl⟩
      · rename_i left right hop
        have ht := tail_length (op_toks hop)
        split
        · obtain ⟨s2, e2⟩ := ih1 right (s.skip.bump .operator) (by simp only [St.bump]; omega)
          obtain ⟨G, u, hx⟩ := (pexpr_ext fuel).1 _ _ _ e2
          have hl := hx.length
          simp only [St.bump] at hl
          rw [e2]
          exact ih2 _ _ _ (by omega)
        · exact ⟨_, rfl⟩

/-- Room for the nodes that are still to come: 16 per token. -/
def St.pot (s : St) : Nat := s.lev.cur.size + 16 * s.toks.length

theorem skip_pot (s : St) : s.skip.pot ≤ s.pot := by
  have : ∀ (ts : List Token) (L : Lev Syn), (skipWs L ts).pot ≤ (⟨L, ts⟩ : St).pot := by
    intro ts
    induction ts with
    | nil => intro L; exact Nat.le_refl _
    | cons t ts ih =>
      intro L
      unfold skipWs
      split
      · have := ih (L.tok t.syn t.len)
        simp only [St.pot, Lev.tok, size_append, Forest.size, List.length_cons] at *
        omega
      · exact Nat.le_refl _
  exact this s.toks s.lev

theorem take_pot {s : St} (h : s.toks ≠ []) : s.take.pot + 15 = s.pot := by
  have := tail_length h
  simp only [St.pot, St.take, Lev.tok, size_append, Forest.size] at *; omega

theorem bump_pot (s : St) (d : Syn) : (s.bump d).pot ≤ s.pot + 2 ∧
    (s.toks ≠ [] → (s.bump d).pot + 14 = s.pot) := by
  constructor
  · simp only [St.pot, St.bump, size_append, Forest.size, List.length_tail]; omega
  · intro h
    have := tail_length h
    simp only [St.pot, St.bump, size_append, Forest.size] at *; omega

theorem wrap_pot (s : St) (p : Nat) (d : Syn) : (s.wrap p d).pot = s.pot + 1 := by
  simp only [St.pot, St.wrap, Lev.wrap_size]; omega

theorem pexpr_pot (fuel : Nat) :
    (∀ (min : Nat) (s s' : St), pexpr fuel min s = some s' → s'.pot ≤ s.pot + 2 ∧
      (s.skip.toks ≠ [] → s'.pot + 4 ≤ s.pot)) ∧
    (∀ (min : Nat) (o o' : Bool) (s s' : St), ploop fuel min o s = some (o', s') →
      s'.pot ≤ s.pot) := by
  induction fuel with
  | zero => exact ⟨by simp [pexpr], by simp [ploop]⟩
  | succ fuel ih =>
    obtain ⟨ih1, ih2⟩ := ih
    have fin : ∀ {w min : Nat} {s s' : St}, finish w (ploop fuel min false s) = some s' →
        s'.pot ≤ s.pot + 1 := by
      intro w min s s' hf
      obtain ⟨o, s2, e, rfl⟩ := finish_some hf
      have := ih2 _ _ _ _ _ e
      cases o with
      | false => simp only [Bool.false_eq_true, if_false]; omega
      | true => simp only [if_true, wrap_pot]; omega
    constructor
    · intro min s s' h
      have hs := skip_pot s
      rw [pexpr] at h
      split at h
      · rename_i hk
        have t1 := take_pot (head_toks hk (by simp))
        split at h
        · simp at h
        · rename_i s2 e2
          have h2 := (ih1 _ _ _ e2).1
          have h3 := skip_pot (s2.wrap s.skip.take.width .group)
          rw [wrap_pot] at h3
          split at h
          · rename_i hc
            have := fin h
            have h4 := take_pot (head_toks hc (by simp))
            exact ⟨by omega, fun _ => by omega⟩
          · simp only [Option.some.injEq] at h
            subst h
            have := (bump_pot (s2.wrap s.skip.take.width .group).skip .error).1
            exact ⟨by omega, fun _ => by omega⟩
      · split at h
        · rename_i hk
          have := fin h
          have h4 := (bump_pot s.skip .number).2 (head_toks hk (by simp))
          exact ⟨by omega, fun _ => by omega⟩
        · simp only [Option.some.injEq] at h
          subst h
          have h4 := bump_pot s.skip .error
          exact ⟨by omega, fun hn => by have := h4.2 hn; omega⟩
    · intro min o o' s s' h
      have hs := skip_pot s
      rw [ploop] at h
      split at h
      · simp only [Option.some.injEq, Prod.mk.injEq] at h
        rw [← h.2]; omega
      · rename_i left right hop
        split at h
        · split at h
          · simp at h
          · rename_i s2 e2
            have h2 := (ih1 _ _ _ e2).1
            have h3 := ih2 _ _ _ _ _ h
            have h4 := (bump_pot s.skip .operator).2 (op_toks hop)
            omega
        · simp only [Option.some.injEq, Prod.mk.injEq] at h
          rw [← h.2]; omega

/-- `expr` takes at least one token, if there is one. -/
theorem pexpr_progress {fuel min : Nat} {s s' : St} (h : pexpr fuel min s = some s')
    (hn : s.skip.toks ≠ []) : s'.toks.length < s.toks.length := by
  have hs := skip_length s
  have ht := tail_length hn
  cases fuel with
  | zero => simp [pexpr] at h
  | succ fuel =>
    have fin : ∀ {w min : Nat} {s s' : St}, finish w (ploop fuel min false s) = some s' →
        s'.toks.length ≤ s.toks.length := by
      intro w min s s' hf
      obtain ⟨o, s2, e, rfl⟩ := finish_some hf
      obtain ⟨G, u, hx⟩ := (pexpr_ext fuel).2 _ _ _ _ _ e
      have := hx.length
      cases o <;> simpa [St.wrap] using this
    rw [pexpr] at h
    split at h
    · split at h
      · simp at h
      · rename_i s2 e2
        obtain ⟨G, u, hx⟩ := (pexpr_ext fuel).1 _ _ _ e2
        have hl := hx.length
        have h3 := skip_length (s2.wrap s.skip.take.width .group)
        simp only [St.take, St.wrap] at hl h3
        split at h
        · have := fin h
          simp only [St.take, St.wrap, List.length_tail] at *
          omega
        · simp only [Option.some.injEq] at h
          subst h
          simp only [St.bump, St.take, St.wrap, List.length_tail] at *
          omega
    · split at h
      · have := fin h
        simp only [St.bump] at this
        omega
      · simp only [Option.some.injEq] at h
        subst h
        simp only [St.bump]
        omega

theorem Ext.padv (L : Lev Syn) (ts : List Token) : ∃ G u, Ext ⟨L, ts⟩ (padv L ts) G u := by
  induction ts generalizing L with
  | nil => exact ⟨.nil, [], Ext.refl _⟩
  | cons t ts ih =>
    unfold Calc.padv
    split
    · exact ⟨.nil, [], Ext.refl _⟩
    · obtain ⟨G, u, h⟩ := ih (L.tok t.syn t.len)
      exact ⟨_, _, (Ext.take ⟨L, t :: ts⟩ (by simp)).trans h⟩

theorem padv_pot (L : Lev Syn) (ts : List Token) : (padv L ts).pot ≤ (⟨L, ts⟩ : St).pot := by
  induction ts generalizing L with
  | nil => exact Nat.le_refl _
  | cons t ts ih =>
    unfold padv
    split
    · exact Nat.le_refl _
    · have := ih (L.tok t.syn t.len)
      simp only [St.pot, Lev.tok, size_append, Forest.size, List.length_cons] at *
      omega

theorem skip_of_nil {s : St} (h : s.toks = []) : s.skip = s := by
  cases s with
  | mk L ts => cases h; rfl

theorem pexpr_nil {fuel min : Nat} {s s' : St} (h : pexpr fuel min s = some s')
    (hn : s.skip.toks = []) : s'.toks = [] := by
  cases fuel with
  | zero => simp [pexpr] at h
  | succ fuel =>
    rw [pexpr] at h
    have hh : s.skip.head = ⟨0, .eof⟩ := by simp [St.head, hn]
    simp only [hh, reduceCtorEq, if_false, Option.some.injEq] at h
    subst h
    simp [St.bump, hn]

/-- The whole parse. -/
theorem proot_total {F : Nat} : ∀ (fuel : Nat) (s : St), s.toks.length < fuel →
    2 * s.toks.length + 2 ≤ F →
    ∃ s' G u, proot F fuel s = some s' ∧ Ext s s' G u ∧ s'.toks = [] ∧ s'.pot ≤ s.pot + 2 := by
  intro fuel
  induction fuel with
  | zero => intro s h; omega
  | succ fuel ih =>
    intro s h hF
    obtain ⟨s1, e1⟩ := (pexpr_total F).1 0 s hF
    obtain ⟨G1, u1, x1⟩ := (pexpr_ext F).1 _ _ _ e1
    obtain ⟨p1, p1'⟩ := (pexpr_pot F).1 _ _ _ e1
    obtain ⟨G2, u2, x2, _⟩ := Ext.skip s1
    have p2 := skip_pot s1
    rw [proot, e1]
    simp only
    split
    · rename_i hd
      exact ⟨_, _, _, rfl, x1.trans x2, hd, by omega⟩
    · rename_i hd
      have hn : s.skip.toks ≠ [] := by
        intro hn
        have := pexpr_nil e1 hn
        rw [skip_of_nil this] at hd
        exact hd this
      have hp := pexpr_progress e1 hn
      have p1 := p1' hn
      obtain ⟨G3, u3, x3⟩ := Ext.padv s1.skip.lev s1.skip.toks
      have p3 := padv_pot s1.skip.lev s1.skip.toks
      have x4 := x3.wrap .error
      have l2 := x2.length
      have l4 := x4.length
      simp only at l4
      obtain ⟨s', G5, u5, e5, x5, n5, p5⟩ :=
        ih ((padv s1.skip.lev s1.skip.toks).wrap s1.skip.width .error)
          (by show _ < _; simp only [St.width] at *; omega) (by simp only [St.width] at *; omega)
      refine ⟨s', _, _, e5, ((x1.trans x2).trans x4).trans x5, n5, ?_⟩
      rw [wrap_pot] at p5
      have : (⟨s1.skip.lev, s1.skip.toks⟩ : St).pot = s1.skip.pot := rfl
      omega

end Syntree.Calc
