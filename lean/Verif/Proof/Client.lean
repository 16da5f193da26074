import Verif.Proof.Bridge
import Verif.Proof.Outcome
import Verif.Proof.Hist

/-!
A way to reason about clients of the builder (the example programs): the client's calls are logged,
and the level being built is seen as a nested list of values with spans.
-/

namespace Syntree

variable {α : Type} {ib pw : Nat}

open Forest

/-- A flavor with `ib` bits for an index and `pw` bits for a pointer. -/
def Flavor.sized (ib pw : Nat) : Flavor := ⟨.bits ib, pw, true⟩

theorem Flavor.default_eq : Flavor.default = Flavor.sized 32 64 := rfl

/-- The builder has been reached by some history of calls without explicit spans that have all
succeeded, and the specification is in state `n`. -/
def Logged (fl : Flavor) (s : Sys α) (n : Nest α) : Prop :=
  ∃ ops os, Clean fl ops ∧ Sys.init.run fl ops = (s, os) ∧ Nest.init.run fl ops = some (n, os)

theorem Logged.init (fl : Flavor) : Logged fl (Sys.init : Sys α) Nest.init :=
  ⟨[], [], ⟨by simp, by simp [Sys.run]⟩, rfl, rfl⟩

theorem Logged.rel {fl : Flavor} {s : Sys α} {n : Nest α} (h : Logged fl s n) : Rel false s n := by
  obtain ⟨ops, os, _, e1, e2⟩ := h
  obtain ⟨s', e, r⟩ := (Rel.init false).run fl ops e2 (g' := false) (fun h => by simp at h)
  rw [e1] at e
  rw [(Prod.mk.inj e).1]; exact r

theorem Logged.step {fl : Flavor} {s : Sys α} {n n' : Nest α} {op : Op α} {o : Out}
    (h : Logged fl s n) (hs : n.step fl op = some (n', .ok o)) (hc : op.cursorDriven = true) :
    ∃ s', s.step fl op = (s', .ok o) ∧ Logged fl s' n' := by
  obtain ⟨s', e, _⟩ := h.rel.step (g' := false) fl op hs (fun h => by simp at h)
  obtain ⟨ops, os, hcl, e1, e2⟩ := h
  have e3 : Sys.init.run fl (ops ++ [op]) = (s', os ++ [.ok o]) := by
    rw [Sys.run_append, e1]
    simp only [Sys.run, e]
  refine ⟨s', e, ops ++ [op], os ++ [.ok o], ⟨?_, ?_⟩, e3, ?_⟩
  · intro x hx
    simp only [List.mem_append, List.mem_singleton] at hx
    rcases hx with hx | rfl
    · exact hcl.1 x hx
    · exact hc
  · rw [e3]
    intro x hx
    simp only [List.mem_append, List.mem_singleton] at hx
    rcases hx with hx | rfl
    · exact hcl.2 x (by rw [e1]; exact hx)
    · exact ⟨o, rfl⟩
  · rw [Nest.run_append, e2]
    simp only [Nest.run, hs]

/-- What `build` gives at the end. -/
theorem Logged.built {fl : Flavor} {s : Sys α} {n : Nest α} (h : Logged fl s n)
    (hs : n.stack = []) : ∃ ops t, Clean fl ops ∧ s.b.build = .ok t ∧ Built fl ops t n.cur ∧
      t.span = ⟨0, n.stop⟩ := by
  have hr := h.rel
  obtain ⟨ops, os, hcl, e1, e2⟩ := h
  have hb : s.b.build = .ok s.b.tree := by
    unfold Builder.build
    rw [hr.parent, Nest.frame, hs]; rfl
  refine ⟨ops, s.b.tree, hcl, hb, ⟨n, os, e2, ?_, by rw [e1]; exact hb⟩, hr.span⟩
  simp [Nest.built, hs]

/-! ## Content of nested lists -/

theorem content_append (F G : Forest (Lab α)) : (F ++ G).content = F.content ++ G.content := by
  induction F with
  | nil => rfl
  | cons x k r _ ih => simp only [cons_append, content, Forest.map] at *; rw [ih]

theorem content_take (p : Nat) (F : Forest (Lab α)) : (F.take p).content = F.content.take p := by
  induction F generalizing p with
  | nil => cases p <;> rfl
  | cons x k r _ ih => cases p with
    | zero => rfl
    | succ p => simp only [content, Forest.map, Forest.take] at *; rw [ih]

theorem content_drop (p : Nat) (F : Forest (Lab α)) : (F.drop p).content = F.content.drop p := by
  induction F generalizing p with
  | nil => cases p <;> rfl
  | cons x k r _ ih => cases p with
    | zero => rfl
    | succ p => simp only [content, Forest.map, Forest.drop] at *; rw [ih]

theorem content_isNil (F : Forest (Lab α)) : F.content.isNil = F.isNil := by cases F <;> rfl

theorem map_size {β γ : Type} (f : β → γ) (F : Forest β) : (F.map f).size = F.size := by
  induction F with
  | nil => rfl
  | cons x k r ihk ihr => simp only [Forest.map, size, ihk, ihr]

theorem content_size (F : Forest (Lab α)) : F.content.size = F.size := map_size _ F

theorem content_tops (F : Forest (Lab α)) :
    F.content.tops = F.tops.map (fun x => (x.data, x.span)) := by
  induction F with
  | nil => rfl
  | cons x k r _ ih => simp only [content, Forest.map, tops_cons, List.map_cons] at *; rw [ih]

theorem content_width (F : Forest (Lab α)) : F.content.width = F.width := by
  simp [content_tops]

/-- The span of a stretch of siblings. -/
def stretchC (F : Forest (α × Span)) : Span :=
  ⟨(F.head?.map (·.2.start)).getD 0, (F.last?.map (·.2.stop)).getD 0⟩

theorem content_stretch (F : Forest (Lab α)) : stretchC F.content = Nest.stretch F := by
  simp only [stretchC, Nest.stretch, head?, last?, content_tops, List.head?_map, List.getLast?_map,
    Option.map_map]
  rfl

/-! ## One level -/

/-- The level being built, and the cursor. -/
structure Lev (α : Type) where
  cur : Forest (α × Span)
  pos : Nat

/-- A token. -/
def Lev.tok (L : Lev α) (d : α) (len : Nat) : Lev α :=
  ⟨L.cur ++ leaf (d, ⟨L.pos, L.pos + len⟩), L.pos + len⟩

/-- Wrap what follows position `p`. -/
def Lev.wrap (L : Lev α) (p : Nat) (d : α) : Lev α :=
  if (L.cur.drop p).isNil then ⟨L.cur ++ leaf (d, ⟨L.pos, L.pos⟩), L.pos⟩
  else ⟨L.cur.take p ++ single (d, stretchC (L.cur.drop p)) (L.cur.drop p), L.pos⟩

/-- An open node. -/
structure Frm (α : Type) where
  id : Nat
  data : α
  start : Nat
  left : Forest (Lab α)

/-- The stack of open nodes is as described. -/
def StackOk (pos : Nat) : List (Lab α × Forest (Lab α)) → List (Frm α) → Prop
  | [], [] => True
  | (x, l) :: xs, f :: fs =>
    x.id = f.id ∧ x.data = f.data ∧ x.span.start = f.start ∧ l = f.left ∧
    x.span.start ≤ x.span.stop ∧ x.span.stop ≤ pos ∧ (∀ g, fs.head? = some g → g.start ≤ f.start) ∧
    StackOk pos xs fs
  | _, _ => False

/-- The builder `s` is building the level `L` inside of the open nodes `st`; `base` nodes are not in
this level. -/
structure Cli (ib pw : Nat) (s : Sys α) (n : Nest α) (L : Lev α) (st : List (Frm α)) (base : Nat) : Prop where
  logged : Logged (Flavor.sized ib pw) s n
  cur : n.cur.content = L.cur
  pos : n.cursor = L.pos
  stop : n.stop = L.pos
  count : n.count = base + L.cur.size
  stack : StackOk L.pos n.stack st
  top : ∀ x l xs, n.stack = (x, l) :: xs → x.span.stop = L.pos

theorem Cli.init : Cli ib pw (Sys.init : Sys α) Nest.init ⟨.nil, 0⟩ [] 0 :=
  ⟨Logged.init _, rfl, rfl, rfl, rfl, trivial, by simp [Nest.init]⟩

theorem Cli.size {s : Sys α} {n : Nest α} {L : Lev α} {st : List (Frm α)} {base : Nat}
    (h : Cli ib pw s n L st base) : n.cur.size = L.cur.size := by rw [← h.cur, content_size]

theorem Cli.width {s : Sys α} {n : Nest α} {L : Lev α} {st : List (Frm α)} {base : Nat}
    (h : Cli ib pw s n L st base) : n.cur.width = L.cur.width := by rw [← h.cur, content_width]

theorem Cli.frame {s : Sys α} {n : Nest α} {L : Lev α} {st : List (Frm α)} {base : Nat}
    (h : Cli ib pw s n L st base) : n.frame = st.head?.map (·.id) := by
  have := h.stack
  unfold Nest.frame
  cases hs : n.stack with
  | nil => cases st with
    | nil => rfl
    | cons f fs => rw [hs] at this; exact this.elim
  | cons x xs => cases st with
    | nil => rw [hs] at this; exact this.elim
    | cons f fs => rw [hs] at this; simp [this.1]

theorem StackOk.mono {pos pos' : Nat} (hp : pos ≤ pos') :
    ∀ {xs : List (Lab α × Forest (Lab α))} {fs : List (Frm α)},
    StackOk pos xs fs → StackOk pos' xs fs
  | [], [], h => h
  | [], _ :: _, h => h
  | (_, _) :: _, [], h => h
  | (_, _) :: _, _ :: _, ⟨h1, h2, h3, h4, h5, h6, h7, h8⟩ =>
    ⟨h1, h2, h3, h4, h5, by omega, h7, h8.mono hp⟩

theorem StackOk.endParent {pos stop : Nat} (hp : pos ≤ stop)
    {xs : List (Lab α × Forest (Lab α))} {fs : List (Frm α)} (h : StackOk pos xs fs) :
    StackOk stop (Nest.endParent stop xs) fs := by
  match xs, fs, h with
  | [], [], _ => trivial
  | (x, l) :: xs, f :: fs, ⟨h1, h2, h3, h4, h5, h6, h7, h8⟩ =>
    exact ⟨h1, h2, h3, h4, by simp only; omega, Nat.le_refl _, h7, h8.mono hp⟩

theorem endParent_top {stop : Nat} {xs : List (Lab α × Forest (Lab α))} {x : Lab α}
    {l : Forest (Lab α)} {ys : List (Lab α × Forest (Lab α))}
    (h : Nest.endParent stop xs = (x, l) :: ys) : x.span.stop = stop := by
  match xs, h with
  | (_, _) :: _, h => simp only [Nest.endParent, List.cons.injEq, Prod.mk.injEq] at h; rw [← h.1.1]

theorem sized_not_full {n : Nest α} (h : n.count < 2 ^ pw - 1) :
    n.full (Flavor.sized ib pw) = false := by
  cases hf : n.full (Flavor.sized ib pw) with
  | false => rfl
  | true => exact absurd (full_iff.1 hf) (by simp only [Flavor.sized]; omega)

/-- `token`. -/
theorem Cli.token {s : Sys α} {n : Nest α} {L : Lev α} {st : List (Frm α)} {base : Nat}
    (h : Cli ib pw s n L st base) (d : α) (len : Nat) (hp : L.pos + len < 2 ^ ib)
    (hc : base + L.cur.size < 2 ^ pw - 1) :
    ∃ s' n', s.step (Flavor.sized ib pw) (.token d len) = (s', .ok (.id n.count)) ∧
      Cli ib pw s' n' (L.tok d len) st base ∧ n'.marks = n.marks := by
  have hf := sized_not_full (ib := ib) (n := n) (by rw [h.count]; exact hc)
  have hsz : base + (L.cur ++ leaf (d, (⟨L.pos, L.pos + len⟩ : Span))).size = n.count + 1 := by
    rw [size_append, h.count]; simp only [Forest.size]; omega
  by_cases hl : len = 0
  · subst hl
    have hst : n.step (Flavor.sized ib pw) (.token d 0) =
        some (n.addLeaf d (Span.point n.cursor), .ok (.id n.count)) := by
      have hf' : n.full ⟨.bits ib, pw, true⟩ = false := hf
      simp [Nest.step, Nest.token, Flavor.sized, IndexKind.lenIsEmpty, hf']
    obtain ⟨s', e, lg⟩ := h.logged.step hst rfl
    refine ⟨s', _, e, ⟨lg, ?_, h.pos, h.stop, hsz.symm, ?_, ?_⟩, rfl⟩
    · show (n.cur ++ leaf _).content = _
      rw [content_append, h.cur]
      simp only [Lev.tok, Span.point, h.pos, content, Forest.map, Nat.add_zero]
    · have := h.stack.endParent (stop := L.pos) (Nat.le_refl _)
      simpa [Nest.addLeaf, Lev.tok, Span.point, h.pos] using this
    · intro x l xs hx
      have := endParent_top (stop := (Span.point n.cursor).stop) hx
      simpa [Span.point, h.pos, Lev.tok] using this
  · have hst : n.step (Flavor.sized ib pw) (.token d len) =
        some (({ n with cursor := n.cursor + len, stop := n.cursor + len } : Nest α).addLeaf d
          ⟨n.cursor, n.cursor + len⟩, .ok (.id n.count)) := by
      have hp' : n.cursor + len < 2 ^ ib := by rw [h.pos]; exact hp
      have hf' : n.full ⟨.bits ib, pw, true⟩ = false := hf
      simp [Nest.step, Nest.token, Flavor.sized, IndexKind.lenIsEmpty, hl,
        IndexKind.checkedAddLen, hp', hf']
    obtain ⟨s', e, lg⟩ := h.logged.step hst rfl
    refine ⟨s', _, e, ⟨lg, ?_, by simp [Nest.addLeaf, Lev.tok, h.pos],
      by simp [Nest.addLeaf, Lev.tok, h.pos], hsz.symm, ?_, ?_⟩, rfl⟩
    · show (n.cur ++ leaf _).content = _
      rw [content_append, h.cur]
      simp only [Lev.tok, h.pos, content, Forest.map]
    · have := h.stack.endParent (stop := L.pos + len) (by omega)
      simpa [Nest.addLeaf, Lev.tok, h.pos] using this
    · intro x l xs hx
      have := endParent_top (stop := n.cursor + len) hx
      simpa [h.pos, Lev.tok] using this

/-- `open`. -/
theorem Cli.open {s : Sys α} {n : Nest α} {L : Lev α} {st : List (Frm α)} {base : Nat}
    (h : Cli ib pw s n L st base) (d : α) (hc : base + L.cur.size < 2 ^ pw - 1) :
    ∃ s' n', s.step (Flavor.sized ib pw) (.open d) = (s', .ok (.id n.count)) ∧
      Cli ib pw s' n' ⟨.nil, L.pos⟩ (⟨n.count, d, L.pos, n.cur⟩ :: st) (base + L.cur.size + 1) ∧
      n'.marks = n.marks := by
  have hf := sized_not_full (ib := ib) (n := n) (by rw [h.count]; exact hc)
  have hst : n.step (Flavor.sized ib pw) (.open d) =
      some (n.addOpen d (Span.point n.cursor), .ok (.id n.count)) := by
    simp only [Nest.step, Nest.openWith, hf]; rfl
  obtain ⟨s', e, lg⟩ := h.logged.step hst rfl
  have hs := h.stack.endParent (stop := L.pos) (Nat.le_refl _)
  refine ⟨s', _, e, ⟨lg, rfl, h.pos, h.stop, ?_, ?_, ?_⟩, rfl⟩
  · simp only [Nest.addOpen, h.count, Forest.size]
    try omega
  · show StackOk L.pos ((⟨n.count, d, Span.point n.cursor⟩, n.cur) ::
      Nest.endParent (Span.point n.cursor).stop n.stack) _
    rw [h.pos]
    refine ⟨rfl, rfl, rfl, rfl, Nat.le_refl _, Nat.le_refl _, ?_, hs⟩
    intro g hg
    have hst := h.stack
    cases hs' : n.stack with
    | nil => rw [hs'] at hst; cases st with
      | nil => simp at hg
      | cons f fs => exact hst.elim
    | cons y ys =>
      rw [hs'] at hst
      cases st with
      | nil => simp at hg
      | cons f fs =>
        simp only [List.head?_cons, Option.some.injEq] at hg
        subst hg
        obtain ⟨_, _, h3, _, h5, h6, _⟩ := hst
        simp only
        omega
  · intro x l xs hx
    simp only [Nest.addOpen, List.cons.injEq, Prod.mk.injEq] at hx
    rw [← hx.1.1]; exact h.pos

/-- `close`. -/
theorem Cli.close {s : Sys α} {n : Nest α} {L : Lev α} {f : Frm α} {st : List (Frm α)}
    {base : Nat} (h : Cli ib pw s n L (f :: st) base) (hb : f.left.size + 1 ≤ base) :
    ∃ s' n', s.step (Flavor.sized ib pw) .close = (s', .ok .unit) ∧
      Cli ib pw s' n' ⟨f.left.content ++ single (f.data, ⟨f.start, L.pos⟩) L.cur, L.pos⟩ st
        (base - f.left.size - 1) ∧ n'.marks = n.marks := by
  have hst := h.stack
  have htop := h.top
  cases hs : n.stack with
  | nil => rw [hs] at hst; exact hst.elim
  | cons y xs =>
    obtain ⟨x, l⟩ := y
    rw [hs] at hst
    obtain ⟨h1, h2, h3, h4, h5, h6, h7, h8⟩ := hst
    have hx := htop x l xs hs
    have hstp : n.step (Flavor.sized ib pw) .close = some
        ({ n with cur := l ++ single x n.cur, stack := Nest.growParent x.span xs,
                  cursor := x.span.stop }, .ok .unit) := by
      simp only [Nest.step, hs]
    obtain ⟨s', e, lg⟩ := h.logged.step hstp rfl
    have hxs : (x.data, x.span) = (f.data, ⟨f.start, L.pos⟩) := by
      rw [h2]
      congr 1
      cases hsp : x.span with
      | mk a b => rw [hsp] at hx h3; simp only at hx h3; rw [hx, h3]
    refine ⟨s', _, e, ⟨lg, ?_, hx, h.stop, ?_, ?_, ?_⟩, rfl⟩
    · show (l ++ single x n.cur).content = _
      rw [content_append, h4]
      show f.left.content ++ single (x.data, x.span) n.cur.content = _
      rw [h.cur, hxs]
    · show n.count = _
      rw [size_append, content_size]
      simp only [Forest.size, h.count]; omega
    · show StackOk L.pos (Nest.growParent x.span xs) st
      match xs, st, h7, h8 with
      | [], [], _, _ => trivial
      | (y, l') :: ys, g :: gs, h7, ⟨k1, k2, k3, k4, k5, k6, k7, k8⟩ =>
        have := h7 g rfl
        refine ⟨k1, k2, ?_, k4, ?_, ?_, k7, k8⟩ <;> simp only [Span.join] <;> omega
    · intro z l' zs hz
      match xs, st, h7, h8, hz with
      | (y, l'') :: ys, g :: gs, h7, ⟨k1, k2, k3, k4, k5, k6, k7, k8⟩, hz =>
        simp only [Nest.growParent, List.cons.injEq, Prod.mk.injEq] at hz
        rw [← hz.1.1]
        simp only [Span.join]; omega

/-- `checkpoint`. -/
theorem Cli.checkpoint {s : Sys α} {n : Nest α} {L : Lev α} {st : List (Frm α)} {base : Nat}
    (h : Cli ib pw s n L st base) (hc : base + L.cur.size < 2 ^ pw - 1) :
    ∃ s' n', s.step (Flavor.sized ib pw) .checkpoint = (s', .ok (.handle n.marks.length)) ∧
      Cli ib pw s' n' L st base ∧
      n'.marks = n.marks ++ [⟨st.head?.map (·.id), L.cur.width, true⟩] := by
  have hf := sized_not_full (ib := ib) (n := n) (by rw [h.count]; exact hc)
  have hst : n.step (Flavor.sized ib pw) .checkpoint = some
      ({ n with marks := n.marks ++ [⟨n.frame, n.cur.width, true⟩] },
        .ok (.handle n.marks.length)) := by
    simp only [Nest.step, hf]; rfl
  obtain ⟨s', e, lg⟩ := h.logged.step hst rfl
  exact ⟨s', _, e, ⟨lg, h.cur, h.pos, h.stop, h.count, h.stack, h.top⟩,
    by simp only [h.frame, h.width]⟩

/-- `close_at` with a checkpoint of this level that has not been swallowed. -/
theorem Cli.closeAt {s : Sys α} {n : Nest α} {L : Lev α} {st : List (Frm α)} {base : Nat}
    (h : Cli ib pw s n L st base) (k p : Nat) (d : α) (hc : base + L.cur.size < 2 ^ pw - 1)
    (hm : n.marks[k]? = some ⟨st.head?.map (·.id), p, true⟩) :
    ∃ s' n', s.step (Flavor.sized ib pw) (.closeAt k d) = (s', .ok (.id n.count)) ∧
      Cli ib pw s' n' (L.wrap p d) st base ∧ n'.marks.length = n.marks.length ∧
      ∀ (j : Nat) (m : Mark), n.marks[j]? = some m → m.pos ≤ p → n'.marks[j]? = some m := by
  have hf := sized_not_full (ib := ib) (n := n) (by rw [h.count]; exact hc)
  have hst : n.step (Flavor.sized ib pw) (.closeAt k d) = some (n.wrap p d none, .ok (.id n.count)) := by
    simp only [Nest.step, Nest.closeAt, hm, h.frame, hf]
    simp
  obtain ⟨s', e, lg⟩ := h.logged.step hst rfl
  refine ⟨s', n.wrap p d none, e, ?_⟩
  have hnil : (L.cur.drop p).isNil = (n.cur.drop p).isNil := by
    rw [← h.cur, ← content_drop, content_isNil]
  cases hn : (n.cur.drop p).isNil with
  | true =>
    have hw : n.wrap p d none = n.addLeaf d (Span.point n.cursor) := by
      simp only [Nest.wrap, hn, if_true, Option.getD_none]
    have hL : L.wrap p d = ⟨L.cur ++ leaf (d, ⟨L.pos, L.pos⟩), L.pos⟩ := by
      simp only [Lev.wrap, hnil, hn, if_true]
    rw [hw] at lg ⊢
    rw [hL]
    refine ⟨⟨lg, ?_, h.pos, h.stop, ?_, ?_, ?_⟩, rfl, fun j m hj _ => hj⟩
    · show (n.cur ++ leaf _).content = _
      rw [content_append, h.cur]
      simp only [Span.point, h.pos, content, Forest.map]
    · simp only [Nest.addLeaf, size_append, h.count, Forest.size]; omega
    · have := h.stack.endParent (stop := L.pos) (Nat.le_refl _)
      simpa [Nest.addLeaf, Span.point, h.pos] using this
    · intro x l xs hx
      have := endParent_top (stop := (Span.point n.cursor).stop) hx
      simpa [Span.point, h.pos] using this
  | false =>
    have hL : L.wrap p d =
        ⟨L.cur.take p ++ single (d, stretchC (L.cur.drop p)) (L.cur.drop p), L.pos⟩ := by
      simp only [Lev.wrap, hnil, hn]; rfl
    have hw : n.wrap p d none = { n with
        cur := n.cur.take p ++
          Forest.single ⟨n.count, d, Nest.stretch (n.cur.drop p)⟩ (n.cur.drop p)
        count := n.count + 1
        marks := n.marks.map fun m =>
          if m.frame = n.frame ∧ p < m.pos then { m with live := false } else m } := by
      simp only [Nest.wrap, hn]; rfl
    rw [hw] at lg ⊢
    rw [hL]
    have hcont : (n.cur.take p ++ Forest.single ⟨n.count, d, Nest.stretch (n.cur.drop p)⟩
        (n.cur.drop p)).content =
        L.cur.take p ++ single (d, stretchC (L.cur.drop p)) (L.cur.drop p) := by
      rw [content_append, content_take, ← h.cur, ← content_drop, content_stretch]; rfl
    refine ⟨⟨lg, hcont, h.pos, h.stop, ?_, h.stack, h.top⟩, by simp, ?_⟩
    · have h1 := congrArg Forest.size (take_append_drop p L.cur)
      rw [size_append] at h1
      simp only [size_append, Forest.size, h.count]; omega
    · intro j m hj hp
      simp only [List.getElem?_map, hj, Option.map_some]
      rw [if_neg (by omega)]

/-- The size after `close_at` is one more. -/
theorem Lev.wrap_size (L : Lev α) (p : Nat) (d : α) : (L.wrap p d).cur.size = L.cur.size + 1 := by
  unfold Lev.wrap
  split
  · simp [size_append, Forest.size]
  · have h1 := congrArg Forest.size (take_append_drop p L.cur)
    rw [size_append] at h1
    simp only [size_append, Forest.size]; omega

theorem Lev.wrap_pos (L : Lev α) (p : Nat) (d : α) : (L.wrap p d).pos = L.pos := by
  unfold Lev.wrap; split <;> rfl

end Syntree
