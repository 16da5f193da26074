import Verif.Proof.Ckpt

/-!
# Properties C02 – C04, C21 – C24: what a history of builder calls makes

The specification is the nested-list machine `Nest` of `Spec/Nested.lean`: `Nest.init.run fl ops`
is `some (n, os)` if no call of `ops` uses a swallowed checkpoint (see `C02_covered`), `os` are then
the results a client should see and `n` is the nested list built so far.
-/

namespace Syntree

variable {α : Type} {fl : Flavor}

open Forest

/-! ## C02, C03 -/

/-- C03: for every history of calls in which no swallowed checkpoint is used, every call returns
what the nested-list machine returns, and `build()` agrees with it: it fails exactly if a node is
still open there, and otherwise a walk over the tree shows exactly the nested list, with its depths,
ids, values and spans. -/
theorem C03_histories_refine {ops : List (Op α)} {n : Nest α} {os : List (Except Err Out)}
    (h : Nest.init.run fl ops = some (n, os)) :
    (Sys.init.run fl ops).2 = os ∧
    (Sys.init.run fl ops).1.b.cursor = n.cursor ∧
    (∀ e, n.built = .error e → (Sys.init.run fl ops).1.b.build = .error e) ∧
    (∀ F, n.built = .ok F → ∃ t, (Sys.init.run fl ops).1.b.build = .ok t ∧
      t.listing = some F.listing ∧ t.len = F.size) := by
  obtain ⟨s, e, r⟩ := (Rel.init false).run (g' := false) fl ops h (by simp)
  rw [e]
  refine ⟨rfl, r.cursor, ?_, ?_⟩
  · intro e he
    rw [r.build]
    unfold Nest.built at he
    cases hs : n.stack with
    | nil => rw [hs] at he; simp at he
    | cons p st => rw [hs] at he; simp at he; simp [he]
  · intro F hF
    obtain ⟨hs, hc⟩ := built_iff.1 hF
    have hr := r.represents hs
    rw [hc] at hr
    exact ⟨s.b.tree, by rw [r.build, if_pos hs], hr.listing, hr.size.symm⟩

/-- open_with, token_with out of order, close_at_with, a moved cursor. -/
def spanOps : List (Op Nat) :=
  [.openWith 1 ⟨2, 9⟩, .checkpoint, .tokenWith 2 ⟨4, 6⟩, .setCursor 20, .tokenEmpty 3,
    .closeAtWith 0 4 ⟨1, 1⟩, .close, .token 5 2]

example : ∃ n os, Nest.init.run Flavor.default spanOps = some (n, os) ∧
    os = [.ok (.id 0), .ok (.handle 0), .ok (.id 1), .ok .unit, .ok (.id 2), .ok (.id 3), .ok .unit,
      .ok (.id 4)] ∧
    n.built = .ok (.cons ⟨0, 1, ⟨2, 20⟩⟩
      (.cons ⟨3, 4, ⟨1, 1⟩⟩ (.cons ⟨1, 2, ⟨4, 6⟩⟩ .nil (.cons ⟨2, 3, ⟨20, 20⟩⟩ .nil .nil)) .nil)
      (.cons ⟨4, 5, ⟨20, 22⟩⟩ .nil .nil)) :=
  ⟨_, _, rfl, rfl, rfl⟩

/-- C02: the same for histories of the calls that place nodes by the cursor. -/
theorem C02_histories_refine {ops : List (Op α)} (_hc : ∀ op ∈ ops, op.cursorDriven = true)
    {n : Nest α} {os : List (Except Err Out)} (h : Nest.init.run fl ops = some (n, os)) :
    (Sys.init.run fl ops).2 = os ∧
    (∀ e, n.built = .error e → (Sys.init.run fl ops).1.b.build = .error e) ∧
    (∀ F, n.built = .ok F → ∃ t, (Sys.init.run fl ops).1.b.build = .ok t ∧
      t.listing = some F.listing ∧ t.len = F.size) :=
  have := C03_histories_refine h
  ⟨this.1, this.2.2⟩

/-- Calls of several kinds, some failing: a checkpoint used from another level, a `close` too much. -/
def mixedOps : List (Op Nat) :=
  [.checkpoint, .open 1, .token 2 3, .closeAt 0 9, .checkpoint, .token 3 1, .closeAt 1 4, .close,
    .close, .closeAt 0 5]

example : (∀ op ∈ mixedOps, op.cursorDriven = true) ∧
    ∃ n os, Nest.init.run Flavor.default mixedOps = some (n, os) ∧
    os = [.ok (.handle 0), .ok (.id 0), .ok (.id 1), .error .closeAtError, .ok (.handle 1),
      .ok (.id 2), .ok (.id 3), .ok .unit, .error .closeError, .ok (.id 4)] ∧
    n.built = .ok (.cons ⟨4, 5, ⟨0, 4⟩⟩ (.cons ⟨0, 1, ⟨0, 4⟩⟩
      (.cons ⟨1, 2, ⟨0, 3⟩⟩ .nil (.cons ⟨3, 4, ⟨3, 4⟩⟩ (.cons ⟨2, 3, ⟨3, 4⟩⟩ .nil .nil) .nil))
      .nil) .nil) :=
  ⟨by decide, _, _, rfl, rfl, rfl⟩

/-- The specification leaves a history open only if it uses a checkpoint that is not live, from the
level it was taken at, while there are pointers left. -/
theorem C02_covered {ops : List (Op α)} (h : Nest.init.run fl ops = none) :
    ∃ pre op post n os k d e m, ops = pre ++ op :: post ∧
      Nest.init.run fl pre = some (n, os) ∧ UsesAt op k d e ∧ n.marks[k]? = some m ∧
      m.frame = n.frame ∧ n.full fl = false ∧ m.live = false := by
  have key : ∀ (post pre : List (Op α)) n os, Nest.init.run fl pre = some (n, os) →
      n.run fl post = none → ∃ pre' op post' n os k d e m, pre ++ post = pre' ++ op :: post' ∧
      Nest.init.run fl pre' = some (n, os) ∧ UsesAt op k d e ∧ n.marks[k]? = some m ∧
      m.frame = n.frame ∧ n.full fl = false ∧ m.live = false := by
    intro post
    induction post with
    | nil => intro pre n os _ h; simp [Nest.run] at h
    | cons op post ih =>
      intro pre n os hpre h
      simp only [Nest.run] at h
      cases h1 : n.step fl op with
      | some r =>
        obtain ⟨n1, o⟩ := r
        rw [h1] at h
        simp only at h
        have h2 : n1.run fl post = none := by
          cases h2 : n1.run fl post with
          | none => rfl
          | some r => rw [h2] at h; simp at h
        have := ih (pre ++ [op]) n1 (os ++ [o])
          (by rw [Nest.run_append, hpre]; simp only [Nest.run, h1]) h2
        simpa using this
      | none =>
        have hcl : ∀ k d e, UsesAt op k d e → n.closeAt fl k d e = none →
            ∃ pre' op' post' n os k d e m, pre ++ op :: post = pre' ++ op' :: post' ∧
            Nest.init.run fl pre' = some (n, os) ∧ UsesAt op' k d e ∧ n.marks[k]? = some m ∧
            m.frame = n.frame ∧ n.full fl = false ∧ m.live = false := by
          intro k d e hu hc
          unfold Nest.closeAt at hc
          cases hm : n.marks[k]? with
          | none => rw [hm] at hc; simp at hc
          | some m =>
            rw [hm] at hc
            simp only at hc
            by_cases hfr : m.frame ≠ n.frame
            · rw [if_pos hfr] at hc; simp at hc
            · rw [if_neg hfr] at hc
              cases hf : n.full fl with
              | true => rw [hf] at hc; simp at hc
              | false =>
                rw [hf] at hc
                cases hl : m.live with
                | true => rw [hl] at hc; simp at hc
                | false =>
                  exact ⟨pre, op, post, n, os, k, d, e, m, rfl, hpre, hu, hm,
                    Decidable.not_not.1 hfr, hf, hl⟩
        cases op with
        | closeAt k d => exact hcl k d none (.closeAt k d) h1
        | closeAtWith k d sp => exact hcl k d (some sp) (.closeAtWith k d sp) h1
        | «open» d => simp [Nest.step] at h1
        | openWith d sp => simp [Nest.step] at h1
        | close => simp [Nest.step] at h1
        | token d len => simp [Nest.step] at h1
        | tokenEmpty d => simp [Nest.step] at h1
        | tokenWith d sp => simp [Nest.step] at h1
        | checkpoint => simp [Nest.step] at h1
        | setCursor i => simp [Nest.step] at h1
  have := key ops [] Nest.init [] rfl h
  simpa using this

/-- A checkpoint that is not live was swallowed: at some earlier moment of the history a checkpoint
of the same level with a smaller position, and with something after it, was used successfully. -/
theorem C02_dead_is_swallowed {ops : List (Op α)} {n : Nest α} {os : List (Except Err Out)}
    (h : Nest.init.run fl ops = some (n, os)) {k : Nat} {m : Mark} (hm : n.marks[k]? = some m)
    (hl : m.live = false) :
    ∃ pre op post n1 os1 k1 d e m1, ops = pre ++ op :: post ∧
      Nest.init.run fl pre = some (n1, os1) ∧ UsesAt op k1 d e ∧
      n1.step fl op = some (n1.wrap m1.pos d e, .ok (.id n1.count)) ∧
      n1.marks[k1]? = some m1 ∧ m1.frame = n1.frame ∧ n1.frame = m.frame ∧
      n1.marks[k]? = some { m with live := true } ∧ m1.pos < m.pos ∧
      n1.cur.drop m1.pos ≠ .nil := by
  revert k m
  refine Nest.run_induct (n0 := Nest.init) (fl := fl)
    (P := fun ops n os => ∀ {k : Nat} {m : Mark}, n.marks[k]? = some m → m.live = false →
      ∃ pre op post n1 os1 k1 d e m1, ops = pre ++ op :: post ∧
      Nest.init.run fl pre = some (n1, os1) ∧ UsesAt op k1 d e ∧
      n1.step fl op = some (n1.wrap m1.pos d e, .ok (.id n1.count)) ∧
      n1.marks[k1]? = some m1 ∧ m1.frame = n1.frame ∧ n1.frame = m.frame ∧
      n1.marks[k]? = some { m with live := true } ∧ m1.pos < m.pos ∧
      n1.cur.drop m1.pos ≠ .nil) ?_ ?_ ops n os h
  · intro k m hm; simp [Nest.init] at hm
  · intro ops n os op n' o hrun ih hst k m hm hl
    have old : n.marks[k]? = some m → ∃ pre op1 post n1 os1 k1 d e m1,
        ops ++ [op] = pre ++ op1 :: post ∧
        Nest.init.run fl pre = some (n1, os1) ∧ UsesAt op1 k1 d e ∧
        n1.step fl op1 = some (n1.wrap m1.pos d e, .ok (.id n1.count)) ∧
        n1.marks[k1]? = some m1 ∧ m1.frame = n1.frame ∧ n1.frame = m.frame ∧
        n1.marks[k]? = some { m with live := true } ∧ m1.pos < m.pos ∧
        n1.cur.drop m1.pos ≠ .nil := by
      intro hm0
      obtain ⟨pre, op1, post, n1, os1, k1, d, e, m1, h1, h2⟩ := ih hm0 hl
      exact ⟨pre, op1, post ++ [op], n1, os1, k1, d, e, m1, by rw [h1]; simp, h2⟩
    have hd := Nest.step_did hst
    cases hd with
    | fail _ _ => exact old hm
    | lost _ _ _ _ _ _ => exact old hm
    | noHandle _ => exact old hm
    | setCursor _ => exact old hm
    | mark _ =>
      simp only at hm
      by_cases hlt : k < n.marks.length
      · rw [List.getElem?_append_left hlt] at hm; exact old hm
      · rw [List.getElem?_append_right (by omega)] at hm
        have h0 : k - n.marks.length = 0 := by
          have := (List.getElem?_eq_some_iff.1 hm).1
          simpa using this
        rw [h0] at hm
        simp only [List.getElem?_cons_zero, Option.some.injEq] at hm
        rw [← hm] at hl; simp at hl
    | opened _ _ _ _ _ => exact old hm
    | emptyTok _ _ _ _ => exact old hm
    | tok _ _ _ _ _ _ => exact old hm
    | tokWith _ _ _ => exact old hm
    | closed _ _ _ _ => exact old hm
    | wrapped _ k1 d e m1 hop hk hfr hl1 hfu =>
      have hu : UsesAt op k1 d e := by
        rcases hop with ⟨rfl, rfl⟩ | ⟨sp, rfl, rfl⟩
        · exact .closeAt k1 d
        · exact .closeAtWith k1 d sp
      by_cases hnil : (n.cur.drop m1.pos).isNil = true
      · have hm' : (n.wrap m1.pos d e).marks = n.marks := by
          unfold Nest.wrap; rw [if_pos hnil]; rfl
        rw [hm'] at hm; exact old hm
      · have hm' : (n.wrap m1.pos d e).marks = n.marks.map fun m =>
            if m.frame = n.frame ∧ m1.pos < m.pos then { m with live := false } else m := by
          unfold Nest.wrap; rw [if_neg hnil]
        rw [hm', List.getElem?_map] at hm
        cases hm0 : n.marks[k]? with
        | none => rw [hm0] at hm; simp at hm
        | some m0 =>
          rw [hm0] at hm
          simp only [Option.map_some, Option.some.injEq] at hm
          by_cases hc : m0.frame = n.frame ∧ m1.pos < m0.pos
          · rw [if_pos hc] at hm
            cases hl0 : m0.live with
            | false =>
              have : m0 = m := by rw [← hm]; cases m0; simp only at hl0; simp [hl0]
              exact old (this ▸ hm0)
            | true =>
              refine ⟨ops, op, [], n, os, k1, d, e, m1, rfl, hrun, hu, hst, hk, hfr, ?_, ?_, ?_, ?_⟩
              · rw [← hm]; exact hc.1.symm
              · rw [hm0, ← hm]; cases m0; simp only at hl0; simp [hl0]
              · rw [← hm]; exact hc.2
              · intro h0; rw [h0] at hnil; simp at hnil
          · rw [if_neg hc] at hm
            exact old (hm ▸ hm0)

/-- A history without `close_at` is always covered. -/
theorem C02_covered_without_close_at {ops : List (Op α)}
    (hc : ∀ op ∈ ops, op.isCloseAt = false) : ∃ n os, Nest.init.run fl ops = some (n, os) := by
  cases h : Nest.init.run fl ops with
  | some r => exact ⟨r.1, r.2, rfl⟩
  | none =>
    obtain ⟨pre, op, post, n, os, k, d, e, m, h1, _, hu, _⟩ := C02_covered h
    have := hc op (by rw [h1]; simp)
    cases hu <;> simp [Op.isCloseAt] at this

/-- The witness for the histories left open: `b` is swallowed by `a`, then used. -/
def swallowOps : List (Op Nat) :=
  [.checkpoint, .token 1 1, .checkpoint, .token 2 1, .closeAt 0 3, .closeAt 1 4]

example : Nest.init.run Flavor.default swallowOps = none := rfl

/-! ## C04 -/

/-- C04: the ids returned by the calls of a history are `0, 1, 2, …`; `len()` is their number;
`get` of the `i`-th id is a node with that id, whose value is the value passed to the `i`-th call
that created a node. -/
theorem C04_ids_dense {ops : List (Op α)} {t : Tree α} {F : Forest (Lab α)}
    (h : Built fl ops t F) :
    (Sys.init.run fl ops).2.filterMap idOf = List.range t.len ∧
    (made ops (Sys.init.run fl ops).2).length = t.len ∧
    ∀ i op, (made ops (Sys.init.run fl ops).2)[i]? = some op →
      t.get i = some i ∧ nodeValue t.nodes i = op.data ∧ op.data ≠ none := by
  obtain ⟨n, os, h1, hs, hc, ho, _, hlen, _, _⟩ := h.parts
  have hlog := LogInv.of_run h1
  rw [ho, hlen]
  refine ⟨hlog.ids, hlog.len, ?_⟩
  intro i op hi
  have hr := h.represents
  have hlt : i < t.len := by
    rw [hlen, ← hlog.len]; exact (List.getElem?_eq_some_iff.1 hi).1
  have hmem : i ∈ F.ids := by
    rw [hr.perm.mem_iff]; simpa [Tree.len] using hlt
  obtain ⟨anc, left, x, kids, right, rfl, hl⟩ := Loc.of_id hmem
  obtain ⟨h2, h3, _⟩ := hr.node_get hl
  obtain ⟨op', h4, h5⟩ := hlog.data x (by rw [Nest.labs, hc]; exact List.mem_append_left _ hl.mem)
  rw [h4] at hi
  obtain rfl := Option.some.inj hi
  exact ⟨h2, by rw [h3, h5], by rw [h5]; simp⟩

example : ∃ t F, Built Flavor.default mixedOps t F ∧ t.len = 5 ∧
    made mixedOps (Sys.init.run Flavor.default mixedOps).2 =
      [.open 1, .token 2 3, .token 3 1, .closeAt 1 4, .closeAt 0 5] :=
  ⟨_, _, ⟨_, _, rfl, rfl, rfl⟩, rfl, rfl⟩

/-! ## C21 -/

/-- C21: let a checkpoint be taken after `pre` and used successfully after the further calls `mid`.
The node being built is then the one it was when the checkpoint was taken. It has the children it
had then, followed by some `new` ones, and the call replaces the `new` ones by one node with the
given data whose children they are. The nodes that are being built and everything before them stay
(only if `new` is empty can the end of the span of the node being built change). -/
theorem C21_close_at_wraps {pre mid : List (Op α)} {n1 n1' n2 n3 : Nest α}
    {os1 os2 : List (Except Err Out)} {k i : Nat} {op : Op α} {d : α} {e : Option Span}
    (h1 : Nest.init.run fl pre = some (n1, os1))
    (hk : n1.step fl .checkpoint = some (n1', .ok (.handle k)))
    (h2 : n1'.run fl mid = some (n2, os2))
    (hu : UsesAt op k d e) (h3 : n2.step fl op = some (n3, .ok (.id i))) :
    n2.frame = n1.frame ∧ n3.frame = n1.frame ∧ n3.cursor = n2.cursor ∧
    ∃ new, n2.cur = n1.cur ++ new ∧
      n3.cur = n1.cur ++ Forest.single ⟨i, d,
        e.getD (if new.isNil then Span.point n2.cursor else Nest.stretch new)⟩ new ∧
      n3.stack.map (fun p => (p.1.id, p.1.data, p.2)) =
        n2.stack.map (fun p => (p.1.id, p.1.data, p.2)) ∧
      (new ≠ .nil → n3.stack = n2.stack) := by
  have hr : Reach fl n1 := ⟨_, _, h1⟩
  obtain ⟨rfl, _, _, m', hm', e1, e2, hb⟩ := hr.taken hk h2
  obtain ⟨m, hm2, hfr, hl, _, rfl, rfl⟩ := Nest.step_uses hu h3
  rw [hm'] at hm2
  obtain rfl := Option.some.inj hm2
  rw [e1] at hfr
  obtain ⟨new, hnew⟩ := hb hl n2.cur (by rw [hfr]; exact level_self _ _)
  have hw := Nest.wrap_prefix n2 n1.cur new hnew d e
  rw [e2]
  refine ⟨hfr.symm, ?_, hw.2.1, new, hnew, hw.1, hw.2.2.1, hw.2.2.2⟩
  have := congrArg (fun l => l.head?.map (fun p => p.1)) hw.2.2.1
  simp only [List.head?_map, Option.map_map] at this
  rw [hfr]
  exact this

/-- C21 seen on the built trees: with and without the call, closing all open nodes at the end, the
nested lists differ exactly in that the siblings added since the checkpoint are wrapped. `c` is
everything around the level of the checkpoint, `P` what was before the checkpoint. -/
theorem C21_close_at_wraps_tree {pre mid : List (Op α)} {n1 n1' n2 n3 : Nest α}
    {os1 os2 : List (Except Err Out)} {k i m : Nat} {op : Op α} {d : α} {e : Option Span}
    (h1 : Nest.init.run fl pre = some (n1, os1))
    (hk : n1.step fl .checkpoint = some (n1', .ok (.handle k)))
    (h2 : n1'.run fl mid = some (n2, os2))
    (hu : UsesAt op k d e) (h3 : n2.step fl op = some (n3, .ok (.id i)))
    {t2 t3 : Tree α} {F2 F3 : Forest (Lab α)}
    (hb2 : Built fl (pre ++ .checkpoint :: mid ++ List.replicate m .close) t2 F2)
    (hb3 : Built fl (pre ++ .checkpoint :: mid ++ op :: List.replicate m .close) t3 F3) :
    ∃ c c' new sp, F2 = Ctx.plug c (n1.cur ++ new) ∧
      F3 = Ctx.plug c' (n1.cur ++ Forest.single ⟨i, d, sp⟩ new) ∧
      (new ≠ .nil → c' = c) ∧ Ctx.bare c' = Ctx.bare c ∧
      sp = e.getD (if new.isNil then Span.point n2.cursor else Nest.stretch new) := by
  obtain ⟨_, _, _, new, hc2, hc3, hst, hst'⟩ := C21_close_at_wraps h1 hk h2 hu h3
  have hrun2 : Nest.init.run fl (pre ++ .checkpoint :: mid) = some (n2, os1 ++ .ok (.handle k) :: os2) := by
    rw [Nest.run_append, h1]; simp only [Nest.run, hk, h2]
  obtain ⟨n, os, hn, hb, _⟩ := hb2
  obtain ⟨n', os', hn', hb', _⟩ := hb3
  rw [Nest.run_append, hrun2] at hn hn'
  simp only [Nest.run, h3] at hn hn'
  cases hr : n2.run fl (List.replicate m .close) with
  | none => rw [hr] at hn; simp at hn
  | some r =>
    obtain ⟨n4, os4⟩ := r
    rw [hr] at hn
    simp only [Option.some.injEq, Prod.mk.injEq] at hn
    obtain ⟨rfl, _⟩ := hn
    cases hr' : n3.run fl (List.replicate m .close) with
    | none => rw [hr'] at hn'; simp at hn'
    | some r' =>
      obtain ⟨n5, os5⟩ := r'
      rw [hr'] at hn'
      simp only [Option.some.injEq, Prod.mk.injEq] at hn'
      obtain ⟨rfl, _⟩ := hn'
      obtain ⟨hs, rfl⟩ := built_iff.1 hb
      obtain ⟨hs', rfl⟩ := built_iff.1 hb'
      refine ⟨closeCtx m n2.stack, closeCtx m n3.stack, new, _, ?_, ?_, ?_, ?_, rfl⟩
      · rw [run_closes m hr hs, hc2]
      · rw [run_closes m hr' hs', hc3]
      · intro hne; rw [hst' hne]
      · exact closeCtx_bare m _ _ hst

/-- open 1; token 2; checkpoint; token 3; open 4; close; close_at: wraps the nodes 3 and 4. -/
example : ∃ (n1 n1' n2 n3 : Nest Nat) (os1 os2 : List (Except Err Out)),
    Nest.init.run Flavor.default [.open 1, .token 2 1] = some (n1, os1) ∧
    n1.step Flavor.default .checkpoint = some (n1', .ok (.handle 0)) ∧
    n1'.run Flavor.default [.token 3 1, .open 4, .close] = some (n2, os2) ∧
    UsesAt (.closeAt 0 5 : Op Nat) 0 5 none ∧
    n2.step Flavor.default (.closeAt 0 5) = some (n3, .ok (.id 4)) ∧
    n2.cur = .cons ⟨1, 2, ⟨0, 1⟩⟩ .nil (.cons ⟨2, 3, ⟨1, 2⟩⟩ .nil (.leaf ⟨3, 4, ⟨2, 2⟩⟩)) ∧
    n3.cur = .cons ⟨1, 2, ⟨0, 1⟩⟩ .nil (.single ⟨4, 5, ⟨1, 2⟩⟩
      (.cons ⟨2, 3, ⟨1, 2⟩⟩ .nil (.leaf ⟨3, 4, ⟨2, 2⟩⟩))) :=
  ⟨_, _, _, _, _, _, rfl, rfl, rfl, .closeAt 0 5, rfl, rfl, rfl⟩

/-! ## C22 -/

/-- C22: a checkpoint is taken after `pre` and used after the further calls `mid`. The call fails
with `CloseAtError` exactly if the node being built (judged by the results of the `open` and `close`
calls) is not the one it was when the checkpoint was taken, and then nothing at all is changed. -/
theorem C22_other_level_rejected {pre mid : List (Op α)} {n : Nest α}
    {os : List (Except Err Out)} {k : Nat} {op : Op α} {d : α} {e : Option Span}
    (h : Nest.init.run fl (pre ++ .checkpoint :: mid) = some (n, os))
    (hk : ((Sys.init.run fl pre).1.step fl .checkpoint).2 = .ok (.handle k))
    (hu : UsesAt op k d e) :
    let s := (Sys.init.run fl (pre ++ .checkpoint :: mid)).1
    (building fl pre ≠ building fl (pre ++ .checkpoint :: mid) ↔
      (s.step fl op).2 = .error .closeAtError) ∧
    (building fl pre ≠ building fl (pre ++ .checkpoint :: mid) → (s.step fl op).1 = s) := by
  obtain ⟨n1, os1, os2, h1, h2, _⟩ := Nest.run_split h
  rw [building_eq h, building_eq h1]
  obtain ⟨s1, es1, r1⟩ := (Rel.init false).run (g' := false) fl pre h1 (by simp)
  obtain ⟨s, es, r⟩ := (Rel.init false).run (g' := false) fl _ h (by simp)
  rw [es1] at hk
  simp only [es]
  simp only [Nest.run] at h2
  cases hc : n1.step fl .checkpoint with
  | none => rw [hc] at h2; simp at h2
  | some q =>
    obtain ⟨n1', o⟩ := q
    rw [hc] at h2
    simp only at h2
    obtain ⟨s1', es1', _⟩ := r1.step (g' := false) fl .checkpoint hc (by simp)
    rw [es1'] at hk
    simp only at hk
    subst hk
    cases hm2 : n1'.run fl mid with
    | none => rw [hm2] at h2; simp at h2
    | some q =>
      obtain ⟨n', os'⟩ := q
      rw [hm2] at h2
      simp only [Option.some.injEq, Prod.mk.injEq] at h2
      obtain ⟨rfl, _⟩ := h2
      have hr : Reach fl n1 := ⟨_, _, h1⟩
      obtain ⟨rfl, _, _, m', hm', e1, _, _⟩ := hr.taken hc hm2
      -- the cell of the checkpoint
      have hlt : n1.marks.length < s.handles.length := by
        rw [r.marks.len]; exact (List.getElem?_eq_some_iff.1 hm').1
      have hh : s.handles[n1.marks.length]? = some s.handles[n1.marks.length] :=
        List.getElem?_eq_getElem hlt
      obtain ⟨cell, hcell, hpar, _⟩ := r.marks.cell _ _ _ hh hm'
      rw [e1] at hpar
      have hstep : ∀ (x : Option Span), (n1.frame ≠ n'.frame →
          s.b.closeAtCore fl s.cells s.handles[n1.marks.length] d x =
            (s.cells, s.b, .error .closeAtError)) ∧
          (n1.frame = n'.frame → (s.b.closeAtCore fl s.cells s.handles[n1.marks.length] d x).2.2 ≠
            .error .closeAtError) := by
        intro x
        constructor
        · intro hne
          simp only [Builder.closeAtCore, hcell, hpar, r.parent]
          rw [if_pos hne]
        · intro heq hbad
          have hg : ∀ op, UsesAt op n1.marks.length d x →
              (s.step fl op).2 ≠ .error .closeAtError := by
            intro op hu hbad2
            obtain ⟨st, hst⟩ := (Good.init (α := α) fl).run (pre ++ .checkpoint :: mid)
            rw [es] at hst
            simp only at hst
            rw [(hst.step op).1] at hbad2
            have : expectedCloseAt fl s n1.marks.length = .error .closeAtError := by
              cases hu <;> exact hbad2
            unfold expectedCloseAt at this
            rw [hh] at this
            simp only [hcell, hpar, r.parent] at this
            rw [if_neg (fun h => h heq)] at this
            split at this
            · simp at this
            · unfold newNode at this; split at this <;> simp at this
          cases x with
          | none =>
            apply hg _ (.closeAt _ d)
            simp only [Sys.step, hh, Builder.closeAt, hbad]; rfl
          | some sp =>
            apply hg _ (.closeAtWith _ d sp)
            simp only [Sys.step, hh, Builder.closeAtWith, hbad]; rfl
      have hst : s.step fl op = ({ s with
          b := (s.b.closeAtCore fl s.cells s.handles[n1.marks.length] d e).2.1,
          cells := (s.b.closeAtCore fl s.cells s.handles[n1.marks.length] d e).1 },
          (s.b.closeAtCore fl s.cells s.handles[n1.marks.length] d e).2.2.map .id) := by
        cases hu <;> simp only [Sys.step, hh] <;> rfl
      rw [hst]
      refine ⟨⟨fun hne => ?_, fun hbad heq => ?_⟩, fun hne => ?_⟩
      · simp only [(hstep e).1 hne]; rfl
      · apply (hstep e).2 heq
        simp only at hbad
        cases hx : (s.b.closeAtCore fl s.cells s.handles[n1.marks.length] d e).2.2 with
        | ok v => rw [hx] at hbad; simp [Except.map] at hbad
        | error v => rw [hx] at hbad; simp [Except.map] at hbad; rw [hbad]
      · simp only [(hstep e).1 hne]

example : building Flavor.default ([.token 1 1] : List (Op Nat)) = none ∧
    building Flavor.default ([.token 1 1, .checkpoint, .open 2] : List (Op Nat)) = some 1 ∧
    ((Sys.init.run Flavor.default ([.token 1 1, .checkpoint, .open 2] : List (Op Nat))).1.step
      Flavor.default (.closeAt 0 3)).2 = .error .closeAtError := ⟨rfl, rfl, rfl⟩

/-! ## C23 -/

/-- C23 (partial): a checkpoint that does not belong to the level being built is rejected, and nothing
changes. What is missing is the rejection of a swallowed checkpoint of the same level: the code does
not do that, see `C23_swallowed_is_accepted` and `C23_fails`. -/
theorem C23_not_a_sibling_rejected_partial {pre mid : List (Op α)} {n : Nest α}
    {os : List (Except Err Out)} {k : Nat} {op : Op α} {d : α} {e : Option Span}
    (h : Nest.init.run fl (pre ++ .checkpoint :: mid) = some (n, os))
    (hk : ((Sys.init.run fl pre).1.step fl .checkpoint).2 = .ok (.handle k))
    (hu : UsesAt op k d e)
    (hne : building fl pre ≠ building fl (pre ++ .checkpoint :: mid)) :
    (Sys.init.run fl (pre ++ .checkpoint :: mid)).1.step fl op =
      ((Sys.init.run fl (pre ++ .checkpoint :: mid)).1, .error .closeAtError) := by
  have := C22_other_level_rejected h hk hu
  exact Prod.ext (this.2 hne) (this.1.1 hne)

/-- C23 does not hold: as long as there are pointers left, every swallowed checkpoint is accepted on
the level it was taken at. -/
theorem C23_swallowed_is_accepted {ops : List (Op α)} {n : Nest α} {os : List (Except Err Out)}
    (h : Nest.init.run fl ops = some (n, os)) {k : Nat} {m : Mark} (hm : n.marks[k]? = some m)
    (hl : m.live = false) (hfr : m.frame = n.frame) (hf : n.full fl = false)
    {op : Op α} {d : α} {e : Option Span} (hu : UsesAt op k d e) :
    ((Sys.init.run fl ops).1.step fl op).2 = .ok (.id n.count) := by
  obtain ⟨s, es, r⟩ := (Rel.init false).run (g' := false) fl ops h (by simp)
  obtain ⟨st, hst⟩ := (Good.init (α := α) fl).run ops
  rw [es] at hst ⊢
  simp only at hst ⊢
  rw [(hst.step op).1]
  have hx : expected fl s op = expectedCloseAt fl s k := by cases hu <;> rfl
  rw [hx]
  have hlt : k < s.handles.length := by
    rw [r.marks.len]; exact (List.getElem?_eq_some_iff.1 hm).1
  have hh : s.handles[k]? = some s.handles[k] := List.getElem?_eq_getElem hlt
  obtain ⟨cell, hcell, hpar, _, hdead, _⟩ := r.marks.cell _ _ _ hh hm
  have hlen : s.b.tree.len = n.count := r.tree.len
  have hlt2 := hdead hl
  unfold expectedCloseAt
  rw [hh]
  simp only [hcell, hpar, r.parent, hfr, hlen]
  have hc : n.count < 2 ^ fl.width - 1 := by
    rw [← not_full_iff, hf]; simp
  rw [if_neg (by simp), if_neg (by omega)]
  simp [newNode, hc]

/-- C23 does not hold: the checkpoint `b` is swallowed by `close_at(a, ..)`, but `close_at(b, ..)`
succeeds, and after one more token the tree is not well formed any more: `children()` of the tree
misses the new token, which no other node has as a child either; the walk reaches it, and reports
that it is nested. -/
theorem C23_fails :
    let s := Sys.init.run Flavor.default (swallowOps ++ [.token 5 1])
    let t := s.1.b.tree
    s.2 = [.ok (.handle 0), .ok (.id 0), .ok (.handle 1), .ok (.id 1), .ok (.id 2), .ok (.id 3),
      .ok (.id 4)] ∧
    s.1.b.build = .ok t ∧ nodeParent t.nodes 4 = none ∧
    Yields (Children.next t.nodes) t.children [2] ∧
    (∀ i < 5, ∃ l, Yields (Children.next t.nodes) (nodeChildren t.nodes i) l ∧ 4 ∉ l) ∧
    Yields (WithDepths.next t.nodes) t.walk [(0, 2), (1, 0), (1, 3), (2, 1), (1, 4)] := by
  refine ⟨rfl, rfl, rfl, ?_, ?_, ?_⟩
  · exact .item rfl (.done rfl)
  · intro i hi
    match i, hi with
    | 0, _ => exact ⟨[], .done rfl, by simp⟩
    | 1, _ => exact ⟨[], .done rfl, by simp⟩
    | 2, _ => exact ⟨[0, 3], .item rfl (.item rfl (.done rfl)), by simp⟩
    | 3, _ => exact ⟨[1], .item rfl (.done rfl), by simp⟩
    | 4, _ => exact ⟨[], .done rfl, by simp⟩
  · exact .item rfl (.item rfl (.item rfl (.item rfl (.item rfl (.done rfl)))))

/-! ## C24 -/

/-- C24, reuse: if a checkpoint was used successfully, making the node `i`, then after further calls
`mid` that only use checkpoints taken later, using it again wraps the node `i` and exactly what
was added to that level after it. -/
theorem C24_reuse {pre mid1 mid2 : List (Op α)} {n1 n1' n2 n3 n4 n5 : Nest α}
    {os1 os2 os4 : List (Except Err Out)} {k i i' : Nat} {op op' : Op α} {d d' : α}
    {e e' : Option Span}
    (h1 : Nest.init.run fl pre = some (n1, os1))
    (hk : n1.step fl .checkpoint = some (n1', .ok (.handle k)))
    (h2 : n1'.run fl mid1 = some (n2, os2))
    (hu : UsesAt op k d e) (h3 : n2.step fl op = some (n3, .ok (.id i)))
    (h4 : n3.run fl mid2 = some (n4, os4))
    (hnew : ∀ op ∈ mid2, ∀ k d e, UsesAt op k d e → n3.marks.length ≤ k)
    (hu' : UsesAt op' k d' e') (h5 : n4.step fl op' = some (n5, .ok (.id i'))) :
    ∃ sp sp' new1 new2, n2.cur = n1.cur ++ new1 ∧
      n3.cur = n1.cur ++ Forest.single ⟨i, d, sp⟩ new1 ∧
      n4.cur = n1.cur ++ Forest.single ⟨i, d, sp⟩ new1 ++ new2 ∧
      n5.cur = n1.cur ++
        Forest.single ⟨i', d', sp'⟩ (Forest.single ⟨i, d, sp⟩ new1 ++ new2) ∧
      sp = e.getD (if new1.isNil then Span.point n2.cursor else Nest.stretch new1) ∧
      sp' = e'.getD (Nest.stretch (Forest.single ⟨i, d, sp⟩ new1 ++ new2)) := by
  obtain ⟨_, hfr3, _, new1, hc2, hc3, _⟩ := C21_close_at_wraps h1 hk h2 hu h3
  have h24 : n1'.run fl (mid1 ++ op :: mid2) = some (n4, os2 ++ .ok (.id i) :: os4) := by
    rw [Nest.run_append, h2]; simp only [Nest.run, h3, h4]
  obtain ⟨hfr4, _, _, new, hc4, hc5, _⟩ := C21_close_at_wraps h1 hk h24 hu' h5
  have hr1 : Reach fl n1 := ⟨_, _, h1⟩
  have hr3 : Reach fl n3 := ((hr1.step hk).run h2).step h3
  have hb : Begins n3.cur n3.frame n4 := hr3.begins_newer (P := n3.cur) (f := n3.frame)
    (fun L hL => ⟨.nil, by
      have := (level_self n3.cur n3.stack).symm.trans hL
      simpa using (Option.some.inj this).symm⟩)
    (fun i hi => hr3.frame_lt hi) hnew h4
  have hlev : level n4.cur n4.stack n3.frame = some n4.cur := by
    rw [hfr3, ← hfr4]; exact level_self _ _
  obtain ⟨new2, hn⟩ := hb n4.cur hlev
  have : new = Forest.single ⟨i, d,
      e.getD (if new1.isNil then Span.point n2.cursor else Nest.stretch new1)⟩ new1 ++ new2 := by
    have h6 := hc4.symm.trans hn
    rw [hc3, append_assoc] at h6
    have h7 := congrArg (Forest.drop n1.cur.width) h6
    rw [drop_width, drop_width] at h7
    exact h7
  rw [this] at hc5
  exact ⟨_, _, new1, new2, hc2, hc3, by rw [hn, hc3], hc5, rfl, rfl⟩

example : ∃ (n1 n1' n2 n3 n4 n5 : Nest Nat) (os1 os2 os4 : List (Except Err Out)),
    Nest.init.run Flavor.default [.token 1 1] = some (n1, os1) ∧
    n1.step Flavor.default .checkpoint = some (n1', .ok (.handle 0)) ∧
    n1'.run Flavor.default [.token 2 1] = some (n2, os2) ∧
    n2.step Flavor.default (.closeAt 0 3) = some (n3, .ok (.id 2)) ∧
    n3.run Flavor.default [.checkpoint, .token 4 1, .closeAt 1 5] = some (n4, os4) ∧
    n4.step Flavor.default (.closeAt 0 6) = some (n5, .ok (.id 5)) ∧
    n5.cur = .cons ⟨0, 1, ⟨0, 1⟩⟩ .nil (.single ⟨5, 6, ⟨1, 3⟩⟩
      (.cons ⟨2, 3, ⟨1, 2⟩⟩ (.leaf ⟨1, 2, ⟨1, 2⟩⟩)
        (.single ⟨4, 5, ⟨2, 3⟩⟩ (.leaf ⟨3, 4, ⟨2, 3⟩⟩)))) :=
  ⟨_, _, _, _, _, _, _, _, _, rfl, rfl, rfl, rfl, rfl, rfl, rfl⟩

theorem Sys.step_handles (s : Sys α) (op : Op α) :
    ∃ hs, (s.step fl op).1.handles = s.handles ++ hs := by
  cases op with
  | checkpoint =>
    simp only [Sys.step]
    rcases s.b.mkCheckpoint fl s.cells with ⟨cells, b, _ | c⟩
    · exact ⟨[], by simp⟩
    · exact ⟨[c], rfl⟩
  | closeAt k d =>
    simp only [Sys.step]
    cases s.handles[k]? <;> exact ⟨[], by simp⟩
  | closeAtWith k d sp =>
    simp only [Sys.step]
    cases s.handles[k]? <;> exact ⟨[], by simp⟩
  | _ => exact ⟨[], by simp [Sys.step, Sys.lift]⟩

/-- Two checkpoints that are the same cell can be exchanged in every use, in every continuation. -/
theorem Sys.run_swap {k k' c : Nat} {ops ops' : List (Op α)}
    (hops : SameButForAll k k' ops ops') {s : Sys α}
    (hk : s.handles[k]? = some c) (hk' : s.handles[k']? = some c) :
    s.run fl ops = s.run fl ops' := by
  induction hops generalizing s with
  | nil => rfl
  | cons hop _ ih =>
    rename_i op op' ops ops' _
    have e : s.step fl op = s.step fl op' := by
      cases hop <;> first | rfl | simp only [Sys.step, hk, hk']
    simp only [Sys.run]
    rw [e]
    obtain ⟨hs, eh⟩ := Sys.step_handles (fl := fl) s op'
    have ext : ∀ j : Nat, s.handles[j]? = some c → (s.step fl op').1.handles[j]? = some c := by
      intro j hj
      rw [eh, List.getElem?_append_left (List.getElem?_eq_some_iff.1 hj).1]; exact hj
    rw [ih (ext k hk) (ext k' hk')]

/-- C24, sharing: two checkpoints taken at the same position (the same number of children of the
same node; the first one has not been swallowed in between) can be exchanged for each other, at each
use separately, in every continuation of the history whatsoever, also one that uses swallowed
checkpoints: all results and the whole final state are the same. -/
theorem C24_interchangeable {pre mid : List (Op α)} {n1 n1' n2 n2' : Nest α}
    {os1 os2 : List (Except Err Out)} {k k' : Nat}
    (h1 : Nest.init.run fl pre = some (n1, os1))
    (hk : n1.step fl .checkpoint = some (n1', .ok (.handle k)))
    (h2 : n1'.run fl mid = some (n2, os2))
    (hk' : n2.step fl .checkpoint = some (n2', .ok (.handle k')))
    (hfr : n2.frame = n1.frame) (hpos : n2.cur.width = n1.cur.width)
    (hlive : ∀ m, n2.marks[k]? = some m → m.live = true)
    {ops ops' : List (Op α)} (hops : SameButForAll k k' ops ops') :
    Sys.init.run fl (pre ++ .checkpoint :: mid ++ .checkpoint :: ops) =
      Sys.init.run fl (pre ++ .checkpoint :: mid ++ .checkpoint :: ops') := by
  have hr1 : Reach fl n1 := ⟨_, _, h1⟩
  obtain ⟨rfl, hr1', _, m, hm, e1, e2, _⟩ := hr1.taken hk h2
  have hr2 : Reach fl n2 := hr1'.run h2
  obtain ⟨rfl, _, hn2', _⟩ := hr2.taken hk' (mid := []) rfl
  have hall : Nest.init.run fl (pre ++ .checkpoint :: mid ++ [.checkpoint]) =
      some (n2', os1 ++ .ok (.handle n1.marks.length) :: os2 ++
        [.ok (.handle n2.marks.length)]) := by
    rw [Nest.run_append, Nest.run_append, h1]; simp only [Nest.run, hk, h2, hk']
  obtain ⟨s, es, r⟩ := (Rel.init false).run (g' := false) fl _ hall (by simp)
  have hmark : m = ⟨n2.frame, n2.cur.width, true⟩ := by
    have := hlive m hm
    cases m; simp only at e1 e2 this; rw [e1, e2, this, hfr, hpos]
  have hm1 : n2'.marks[n1.marks.length]? = some m := by
    rw [hn2']; simp only
    rw [List.getElem?_append_left (List.getElem?_eq_some_iff.1 hm).1]; exact hm
  have hm2 : n2'.marks[n2.marks.length]? = some m := by
    rw [hn2', hmark]; simp
  have hl1 : n1.marks.length < s.handles.length := by
    rw [r.marks.len]; exact (List.getElem?_eq_some_iff.1 hm1).1
  have hl2 : n2.marks.length < s.handles.length := by
    rw [r.marks.len]; exact (List.getElem?_eq_some_iff.1 hm2).1
  have hh1 := List.getElem?_eq_getElem hl1
  have hh2 := List.getElem?_eq_getElem hl2
  have heq := r.marks.uniq _ _ _ _ m (hlive m hm) hh1 hh2 hm1 hm2
  rw [← heq] at hh2
  have app : ∀ l : List (Op α), pre ++ .checkpoint :: mid ++ .checkpoint :: l =
      (pre ++ .checkpoint :: mid ++ [.checkpoint]) ++ l := by intro l; simp
  rw [app ops, app ops', Sys.run_append _ _ _ ops, Sys.run_append _ _ _ ops', es]
  simp only
  rw [Sys.run_swap hops hh1 hh2]

example : SameButForAll 0 1
    ([.token 1 1, .closeAt 0 2, .closeAt 0 3, .closeAt 1 4] : List (Op Nat))
    [.token 1 1, .closeAt 1 2, .closeAt 0 3, .closeAt 0 4] :=
  .cons (.same _) (.cons (.swap 2) (.cons (.same _) (.cons (.swap' 4) .nil)))

example : ∃ (n1 n1' n2 n2' : Nest Nat) (os1 os2 : List (Except Err Out)),
    Nest.init.run Flavor.default [.token 7 1] = some (n1, os1) ∧
    n1.step Flavor.default .checkpoint = some (n1', .ok (.handle 0)) ∧
    n1'.run Flavor.default [.setCursor 9] = some (n2, os2) ∧
    n2.step Flavor.default .checkpoint = some (n2', .ok (.handle 1)) ∧
    n2.frame = n1.frame ∧ n2.cur.width = n1.cur.width ∧
    ∀ m, n2.marks[0]? = some m → m.live = true := by
  refine ⟨_, _, _, _, _, _, rfl, rfl, rfl, rfl, rfl, rfl, ?_⟩
  intro m hm
  have : m = ⟨none, 1, true⟩ := (Option.some.inj hm).symm
  rw [this]

end Syntree
