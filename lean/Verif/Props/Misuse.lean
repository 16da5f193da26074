import Verif.Proof.Outcome
import Verif.Proof.Family
import Verif.Model.Node

/-!
# Properties that hold whatever checkpoints are used: C05, C25, C26, C27, C28, C48

A `World` (`Model/World.lean`) holds any number of builders, also cloned ones, and any checkpoint
may be passed to any builder, in particular swallowed and foreign ones.
-/

namespace Syntree

variable {α : Type}

/-! A witness with two builders, a foreign and a swallowed checkpoint. Builder 0 takes checkpoints
0 (before node 0) and 1 (before node 1), closes at 0, then at the swallowed 1; builder 1 is then
used with the foreign checkpoint 1. -/

def demoWorld : List (WOp Nat) :=
  [.new Flavor.default, .new Flavor.default, .call 0 .checkpoint, .call 0 (.token 1 1),
    .call 0 .checkpoint, .call 0 (.token 2 1), .call 0 (.closeAt 0 3), .call 0 (.closeAt 1 4),
    .call 0 (.open 5), .call 1 (.closeAt 0 6), .call 1 (.open 7)]

/-! ## C05 -/

/-- C05: in every program, with any number of (cloned) builders and any use of checkpoints, `close`
on a builder fails with `CloseError` exactly if its successful `open` calls are all matched by
successful `close` calls, and otherwise succeeds; `build` fails with `BuildError` exactly
otherwise. -/
theorem C05_balance_exact (ops : List (WOp α)) {w : World α} {os : List (Option (Except Err Out))}
    (hw : World.init.run ops = (w, os)) {i : Nat} {fl : Flavor} {b : Builder α}
    (hb : w.builders[i]? = some (fl, b)) :
    ∃ d, (worldDepths [] ops os)[i]? = some d ∧
      (w.step (.call i .close)).2 = some (if d = 0 then .error .closeError else .ok .unit) ∧
      b.build = (if d = 0 then .ok b.tree else .error .buildError) := by
  obtain ⟨sts, h, e⟩ := GoodW.init.run ops
  rw [hw] at h e
  obtain ⟨st, hst, hg⟩ := h.get hb
  refine ⟨st.length, ?_, ?_, ?_⟩
  · have e' : worldDepths [] ops os = sts.map List.length := by rw [e]; rfl
    rw [e', List.getElem?_map, hst]; rfl
  · simp only [World.step, hb]
    rw [(hg.step .close).1]
    simp only [expected]
    have := hg.wf.top
    cases st with
    | nil => simp only [List.head?_nil] at this; rw [this]; simp
    | cons p st => simp only [List.head?_cons] at this; rw [this]; simp
  · unfold Builder.build
    have := hg.wf.top
    cases st with
    | nil => simp only [List.head?_nil] at this; rw [this]; simp
    | cons p st => simp only [List.head?_cons] at this; rw [this]; simp

example : ∃ b, (World.init.run demoWorld).1.builders[0]? = some (Flavor.default, b) ∧
    b.build = .error .buildError :=
  ⟨_, rfl, rfl⟩

example : worldDepths [] demoWorld (World.init.run demoWorld).2 = [1, 1] := by decide

/-! ## C28 -/

/-- C28: whatever checkpoints are used, no call loops forever. `MissingNode` is only returned by
`close_at` and `close_at_with`, for a checkpoint that points beyond the next node of the builder it
is used with. (The exact result of every call is `expected`, see `C28_results_exact`.) -/
theorem C28_terminates_no_spurious_missing (ops : List (WOp α)) {w : World α}
    {os : List (Option (Except Err Out))} (hw : World.init.run ops = (w, os)) {i : Nat}
    {fl : Flavor} {b : Builder α} (hb : w.builders[i]? = some (fl, b)) (op : Op α) :
    (w.step (.call i op)).2 ≠ some (.error .diverge) ∧
    ∀ m, (w.step (.call i op)).2 = some (.error (.missingNode m)) →
      ∃ k d, (op = .closeAt k d ∨ ∃ sp, op = .closeAtWith k d sp) ∧
        ∃ c cell, w.handles[k]? = some c ∧ w.cells[c]? = some cell ∧ b.tree.len < cell.node := by
  obtain ⟨sts, h, _⟩ := GoodW.init.run ops
  rw [hw] at h
  obtain ⟨st, hst, hg⟩ := h.get hb
  simp only [World.step, hb, ne_eq, Option.some.injEq]
  rw [(hg.step op).1]
  have hn : ∀ n, newNode fl n ≠ .error .diverge ∧
      ∀ m, newNode fl n ≠ .error (.missingNode m) := by
    intro n; unfold newNode; split <;> simp
  have hc : ∀ k, expectedCloseAt fl ⟨b, w.cells, w.handles⟩ k ≠ .error .diverge ∧
      ∀ m, expectedCloseAt fl ⟨b, w.cells, w.handles⟩ k = .error (.missingNode m) →
        ∃ c cell, w.handles[k]? = some c ∧ w.cells[c]? = some cell ∧ b.tree.len < cell.node := by
    intro k
    unfold expectedCloseAt
    simp only
    split
    · simp
    · rename_i c hk
      split
      · simp
      · rename_i cell hcell
        split
        · simp
        · split
          · rename_i hlt
            exact ⟨by simp, fun m _ => ⟨c, cell, hk, hcell, hlt.2⟩⟩
          · exact ⟨(hn _).1, fun m hm => absurd hm ((hn _).2 m)⟩
  cases op with
  | «open» d => exact ⟨(hn _).1, fun m hm => absurd hm ((hn _).2 m)⟩
  | openWith d sp => exact ⟨(hn _).1, fun m hm => absurd hm ((hn _).2 m)⟩
  | tokenEmpty d => exact ⟨(hn _).1, fun m hm => absurd hm ((hn _).2 m)⟩
  | tokenWith d sp => exact ⟨(hn _).1, fun m hm => absurd hm ((hn _).2 m)⟩
  | close => simp only [expected]; split <;> simp
  | token d n =>
    simp only [expected]
    split
    · simp
    · exact ⟨(hn _).1, fun m hm => absurd hm ((hn _).2 m)⟩
  | checkpoint => simp only [expected]; split <;> simp
  | setCursor j => simp [expected]
  | closeAt k d => exact ⟨(hc k).1, fun m hm => ⟨k, d, .inl rfl, (hc k).2 m hm⟩⟩
  | closeAtWith k d sp => exact ⟨(hc k).1, fun m hm => ⟨k, d, .inr ⟨sp, rfl⟩, (hc k).2 m hm⟩⟩

/-- The hypotheses are met, and `MissingNode` does happen for a foreign checkpoint. -/
example : ∃ b, (World.init.run demoWorld).1.builders[1]? = some (Flavor.default, b) ∧
    (World.init.run demoWorld).2[9]? = some (some (.error (.missingNode 0))) := ⟨_, rfl, rfl⟩

/-- C28: the result of every call of every program, exactly, in terms of the number of nodes made,
the node being built, the cursor and the content of the checkpoint passed in (`Spec/Outcome.lean`),
never of how the nodes are linked. -/
theorem C28_results_exact (ops : List (WOp α)) {w : World α}
    {os : List (Option (Except Err Out))} (hw : World.init.run ops = (w, os)) {i : Nat}
    {fl : Flavor} {b : Builder α} (hb : w.builders[i]? = some (fl, b)) (op : Op α) :
    (w.step (.call i op)).2 = some (expected fl ⟨b, w.cells, w.handles⟩ op) := by
  obtain ⟨sts, h, _⟩ := GoodW.init.run ops
  rw [hw] at h
  obtain ⟨st, hst, hg⟩ := h.get hb
  simp only [World.step, hb]
  rw [(hg.step op).1]

example : (World.init.run demoWorld).2[7]? = some (some (.ok (.id 3))) := rfl

/-- C28: a builder that is only used with its own checkpoints, in any way, never returns
`MissingNode`. -/
theorem C28_own_checkpoints_never_missing (fl : Flavor) (ops : List (Op α)) (op : Op α) (m : Nat) :
    ((Sys.init.run fl ops).1.step fl op).2 ≠ .error (.missingNode m) := by
  obtain ⟨st, h⟩ := (Alone.init fl).run ops
  exact h.no_missing op m

/-! ## C26 -/

/-- The calls that create a node by position only: no index arithmetic and no checkpoint. -/
def Op.plainCreate : Op α → Bool
  | .open _ | .openWith _ _ | .tokenEmpty _ | .tokenWith _ _ => true
  | _ => false

/-- C26: after any history of calls on a builder, with any use of its checkpoints, exactly as many
nodes exist as ids have been returned, and they are at most `2 ^ width - 1`. The next creating call
returns the next id if fewer than `2 ^ width - 1` nodes exist and fails with `Overflow` otherwise:
`open`, `open_with`, `token_empty`, `token_with` always, `token` unless the index overflows. A
checkpoint can be taken exactly if a node can be created. -/
theorem C26_capacity_exact (fl : Flavor) (ops : List (Op α)) {s : Sys α}
    {os : List (Except Err Out)} (hs : Sys.init.run fl ops = (s, os)) :
    s.b.tree.len = (os.filterMap idOf).length ∧
    s.b.tree.len ≤ 2 ^ fl.width - 1 ∧
    (∀ op : Op α, op.plainCreate →
      (s.step fl op).2 = if (os.filterMap idOf).length < 2 ^ fl.width - 1 then
        .ok (.id (os.filterMap idOf).length) else .error .overflow) ∧
    (∀ d len, (fl.ik.lenIsEmpty len ∨ (fl.ik.checkedAddLen s.b.cursor len).isSome) →
      (s.step fl (.token d len)).2 = if (os.filterMap idOf).length < 2 ^ fl.width - 1 then
        .ok (.id (os.filterMap idOf).length) else .error .overflow) ∧
    ((s.step fl .checkpoint).2 = if (os.filterMap idOf).length < 2 ^ fl.width - 1 then
        .ok (.handle s.handles.length) else .error .overflow) ∧
    (∀ op k d e o, UsesAt op k d e → (s.step fl op).2 = o → o ≠ .error .closeAtError →
      k < s.handles.length → o = if (os.filterMap idOf).length < 2 ^ fl.width - 1 then
        .ok (.id (os.filterMap idOf).length) else .error .overflow) := by
  have hlen := (Alone.init (α := α) fl).len_run ops
  obtain ⟨st, h⟩ := (Alone.init (α := α) fl).run ops
  rw [hs] at hlen h
  simp only at hlen h
  have hz : (Sys.init : Sys α).b.tree.len = 0 := rfl
  rw [hz, Nat.zero_add] at hlen
  rw [← hlen]
  refine ⟨rfl, h.good.wf.cap, ?_, ?_, ?_, ?_⟩
  · intro op hop
    rw [(h.good.step op).1]
    cases op <;> first | rfl | simp [Op.plainCreate] at hop
  · intro d len hd
    rw [(h.good.step _).1]
    simp only [expected]
    rw [if_neg]
    · rfl
    · rintro ⟨h1, h2⟩
      rcases hd with hd | hd
      · rw [h1] at hd; simp at hd
      · rw [h2] at hd; simp at hd
  · rw [(h.good.step _).1]; rfl
  · intro op k d e o hu ho hne hk
    rw [(h.good.step _).1] at ho
    subst ho
    have he : expected fl s op = expectedCloseAt fl s k := by cases hu <;> rfl
    rw [he] at hne ⊢
    simp only [expectedCloseAt] at hne ⊢
    obtain ⟨c, hc⟩ : ∃ c, s.handles[k]? = some c := ⟨_, List.getElem?_eq_getElem hk⟩
    rw [hc] at hne ⊢
    obtain ⟨cell, hcell⟩ : ∃ cell, s.cells[c]? = some cell :=
      ⟨_, List.getElem?_eq_getElem (h.good.handles k c hc)⟩
    simp only [hcell] at hne ⊢
    split at hne
    · simp at hne
    · rename_i hp
      rw [if_neg hp]
      have := h.own c cell hcell
      rw [if_neg (by unfold Tree.len; omega : ¬ (_ ∧ s.b.tree.len < cell.node))]
      rfl

/-- With one-bit pointers there is room for one node. -/
example : (Sys.init.run ⟨.bits 32, 1, true⟩ [.open 1, .open (2 : Nat), .checkpoint]).2 =
    [.ok (.id 0), .error .overflow, .error .overflow] := rfl

/-! ## C27 -/

/-- C27: on any builder, `token` with a non-zero length fails with `Overflow` and changes nothing
if `cursor + len` is not representable; if it is representable, the cursor is advanced by exactly
`len` (no wrap around), and then `Overflow` is only reported if there are no pointers left. -/
theorem C27_index_overflow_exact (w width : Nat) (keep : Bool) (ops : List (Op α)) (d : α)
    (len : Nat) (hlen : len ≠ 0) {s s' : Sys α} {o : Except Err Out}
    (hs : (Sys.init.run ⟨.bits w, width, keep⟩ ops).1 = s)
    (hst : s.step ⟨.bits w, width, keep⟩ (.token d len) = (s', o)) :
    (2 ^ w ≤ s.b.cursor + len → s' = s ∧ o = .error .overflow) ∧
    (s.b.cursor + len < 2 ^ w → s'.b.cursor = s.b.cursor + len ∧
      (o = .error .overflow ↔ s.b.tree.len = 2 ^ width - 1)) := by
  obtain ⟨st, h⟩ := (Alone.init (α := α) ⟨.bits w, width, keep⟩).run ops
  rw [hs] at h
  have hne : (Flavor.mk (.bits w) width keep).ik.lenIsEmpty len = false := by
    simp [IndexKind.lenIsEmpty, hlen]
  have hres := (h.good.step (.token d len)).1
  rw [hst] at hres
  simp only [expected] at hres
  constructor
  · intro hover
    have ha : (Flavor.mk (.bits w) width keep).ik.checkedAddLen s.b.cursor len = none := by
      simp [IndexKind.checkedAddLen]; omega
    rw [if_pos ⟨hne, ha⟩] at hres
    refine ⟨?_, hres⟩
    have : (s.step ⟨.bits w, width, keep⟩ (.token d len)).1 = s := by
      simp only [Sys.step, Builder.token, hne, ha, Sys.lift, Bool.false_eq_true, if_false]
    rw [hst] at this; exact this
  · intro hfit
    have ha : (Flavor.mk (.bits w) width keep).ik.checkedAddLen s.b.cursor len =
        some (s.b.cursor + len) := by simp [IndexKind.checkedAddLen, hfit]
    rw [if_neg (by rw [ha]; simp)] at hres
    have hcap := h.good.wf.cap
    constructor
    · have hc : (s.step ⟨.bits w, width, keep⟩ (.token d len)).1.b.cursor = s.b.cursor + len := by
        simp only [Sys.step, Builder.token, hne, ha, Sys.lift, Bool.false_eq_true, if_false]
        by_cases hroom : s.b.tree.nodes.length < 2 ^ width - 1
        · have hwf : WFB ⟨.bits w, width, keep⟩ ({ s.b with
              cursor := s.b.cursor + len,
              tree := { s.b.tree with span := { s.b.tree.span with stop := s.b.cursor + len } } } :
              Builder α) st := h.good.wf.same rfl rfl h.good.wf.sib
          obtain ⟨b', e, _, _, _, e4, _⟩ := hwf.insert hroom d (Span.new s.b.cursor (s.b.cursor + len))
          rw [e]
          exact e4
        · rw [insert_none (by exact hroom)]
      rw [hst] at hc; exact hc
    · rw [hres]
      have hcap' : s.b.tree.len ≤ 2 ^ width - 1 := hcap
      unfold newNode
      split
      · rename_i hlt
        have hlt' : s.b.tree.len < 2 ^ width - 1 := hlt
        simp; omega
      · rename_i hge
        have hge' : ¬ s.b.tree.len < 2 ^ width - 1 := hge
        simp; omega

example : (Sys.init.run ⟨.bits 8, 64, true⟩ [.token (1 : Nat) 255, .token 2 1, .tokenEmpty 3]).2 =
    [.ok (.id 0), .error .overflow, .ok (.id 1)] := rfl

/-! ## C25 -/

/-- C25, partial: after any history of calls on a builder, with any use of its checkpoints, a call
that returns an error leaves the builder, all checkpoints and everything else as they were, unless
it is a `token` with a non-zero length on a builder whose pointers are used up. Missing: that case,
in which only the cursor and the end of the tree's span have moved on (also stated here), see
`C25_fails_token`; and foreign checkpoints, see `C25_fails_foreign`. -/
theorem C25_failed_call_is_noop_partial (fl : Flavor) (ops : List (Op α)) (op : Op α) {e : Err}
    {s : Sys α} (hs : (Sys.init.run fl ops).1 = s) (he : (s.step fl op).2 = .error e) :
    (s.step fl op).1 = s ∨
    ∃ d len c, op = .token d len ∧ fl.ik.lenIsEmpty len = false ∧
      fl.ik.checkedAddLen s.b.cursor len = some c ∧ s.b.tree.len = 2 ^ fl.width - 1 ∧
      (s.step fl op).1 = { s with b := { s.b with
        cursor := c, tree := { s.b.tree with span := { s.b.tree.span with stop := c } } } } := by
  obtain ⟨st, h⟩ := (Alone.init (α := α) fl).run ops
  rw [hs] at h
  rcases h.good.fail he with h1 | ⟨d, len, c, h1, h2, h3, h4, h5, h6⟩ | ⟨m, rfl⟩
  · exact .inl h1
  · refine .inr ⟨d, len, c, h1, h2, h3, ?_, h6⟩
    have := h.good.wf.cap
    unfold Tree.len at h4 ⊢; omega
  · exact absurd he (h.no_missing op m)

/-- A failing `close` after a swallowed checkpoint has been used. -/
example : ((Sys.init.run Flavor.default [.checkpoint, .token (1 : Nat) 1, .checkpoint, .token 2 1,
    .closeAt 0 3, .closeAt 1 4]).1.step Flavor.default .close).2 = .error .closeError := rfl

/-- C25 is false for `token`: with all pointers used up it fails, but the cursor and the span of
the tree have moved. -/
theorem C25_fails_token : ∃ (fl : Flavor) (s : Sys Nat),
    s = (Sys.init.run fl [.token 1 2]).1 ∧ (s.step fl (.token 2 3)).2 = .error .overflow ∧
    s.b.cursor = 2 ∧ (s.step fl (.token 2 3)).1.b.cursor = 5 ∧
    s.b.tree.span = ⟨0, 2⟩ ∧ (s.step fl (.token 2 3)).1.b.tree.span = ⟨0, 5⟩ :=
  ⟨⟨.bits 32, 1, true⟩, _, rfl, rfl, rfl, rfl, rfl, rfl⟩

theorem closeAt_missing {fl : Flavor} {cells : Cells} {b : Builder α} {c : Nat} {cell : Cell} (d : α)
    (ex : Option Span) (hcell : cells[c]? = some cell) (hp : ¬ cell.parent ≠ b.parent)
    (hroom : b.tree.len < 2 ^ fl.width - 1) (hlt : b.tree.len < cell.node) :
    (b.openWith fl d (ex.getD (Span.point b.cursor))).2 = .ok b.tree.len ∧
    b.closeAtCore fl cells c d ex = (cells,
      { (b.openWith fl d (ex.getD (Span.point b.cursor))).1 with parent := b.parent },
      .error (.missingNode b.tree.len)) := by
  have hq : ptrNew fl.width b.tree.len = some b.tree.len := by rw [ptrNew_eq, if_pos hroom]
  have hn : b.tree.nodes[cell.node]? = none := List.getElem?_eq_none (by unfold Tree.len at hlt; omega)
  unfold Builder.closeAtCore Builder.openWith
  rw [hcell]
  simp only
  rw [if_neg hp, hq, hn]
  simp only
  unfold Builder.insert
  rw [hq]
  simp only
  rw [if_pos (by omega)]
  exact ⟨trivial, rfl⟩

/-- C25, exactly what happens otherwise (`_partial`: C25 says that nothing happens). In every program,
with any number of builders and any use of checkpoints, a call that returns an error changes nothing
at all, except in two cases. `token` with a non-zero length on a builder whose pointers are used up:
the cursor and the end of the tree's span have moved on. `close_at` or `close_at_with` that returns
`MissingNode`: the node has been inserted all the same, with nothing below it; the builder is as
after opening the node with `open_with`, except that the node is not open. No other builder and no
checkpoint is affected. -/
theorem C25_failed_call_exact_partial (ops : List (WOp α)) {w : World α}
    {os : List (Option (Except Err Out))} (hw : World.init.run ops = (w, os)) {i : Nat}
    {fl : Flavor} {b : Builder α} (hb : w.builders[i]? = some (fl, b)) (op : Op α) {e : Err}
    (he : (w.step (.call i op)).2 = some (.error e)) :
    (w.step (.call i op)).1 = w ∨
    ∃ b', (w.step (.call i op)).1 = { w with builders := w.builders.set i (fl, b') } ∧
      ((∃ d len c, op = .token d len ∧ e = .overflow ∧ fl.ik.lenIsEmpty len = false ∧
          fl.ik.checkedAddLen b.cursor len = some c ∧ b.tree.len = 2 ^ fl.width - 1 ∧
          b' = { b with cursor := c, tree := { b.tree with span := { b.tree.span with stop := c } } }) ∨
       (∃ k d sp, (op = .closeAt k d ∧ sp = Span.point b.cursor ∨ op = .closeAtWith k d sp) ∧
          e = .missingNode b.tree.len ∧ (b.openWith fl d sp).2 = .ok b.tree.len ∧
          b' = { (b.openWith fl d sp).1 with parent := b.parent })) := by
  obtain ⟨sts, h, _⟩ := GoodW.init.run ops
  rw [hw] at h
  obtain ⟨st, hst, hg⟩ := h.get hb
  simp only [World.step, hb, Option.some.injEq] at he ⊢
  have hboth : ∀ (k : Nat) (d : α) (ex : Option Span) (m : Nat),
      expectedCloseAt fl ⟨b, w.cells, w.handles⟩ k = .error (.missingNode m) →
      ∃ c, w.handles[k]? = some c ∧ m = b.tree.len ∧
        (b.openWith fl d (ex.getD (Span.point b.cursor))).2 = .ok b.tree.len ∧
        b.closeAtCore fl w.cells c d ex = (w.cells,
          { (b.openWith fl d (ex.getD (Span.point b.cursor))).1 with parent := b.parent },
          .error (.missingNode b.tree.len)) := by
    intro k d ex m hm
    unfold expectedCloseAt at hm
    simp only at hm
    cases hk : w.handles[k]? with
    | none => rw [hk] at hm; simp at hm
    | some c =>
      rw [hk] at hm
      simp only at hm
      cases hcell : w.cells[c]? with
      | none => rw [hcell] at hm; simp at hm
      | some cell =>
        rw [hcell] at hm
        simp only at hm
        split at hm
        · simp at hm
        · rename_i hp
          split at hm
          · rename_i hr
            cases hm
            exact ⟨c, rfl, rfl, closeAt_missing d ex hcell hp hr.1 hr.2⟩
          · unfold newNode at hm
            split at hm <;> simp at hm
  rcases hg.fail he with h1 | ⟨d, len, c, h1, h2, h3, h4, h5, h6⟩ | ⟨m, rfl⟩
  · left
    rw [h1]
    obtain ⟨hi, hbi⟩ := List.getElem?_eq_some_iff.1 hb
    have : w.builders.set i (fl, b) = w.builders := by
      rw [← hbi]; exact List.set_getElem_self hi
    simp only [this]
  · right
    rw [h6]
    refine ⟨_, rfl, .inl ⟨d, len, c, h1, h5, h2, h3, ?_, rfl⟩⟩
    have hcap : b.tree.nodes.length ≤ 2 ^ fl.width - 1 := hg.wf.cap
    unfold Tree.len at h4 ⊢
    simp only at h4
    omega
  · right
    rw [(hg.step op).1] at he
    cases op with
    | closeAt k d =>
      obtain ⟨c, h1, rfl, h3, h4⟩ := hboth k d none m he
      simp only [Sys.step, h1, Builder.closeAt, h4]
      exact ⟨_, rfl, .inr ⟨k, d, _, .inl ⟨rfl, rfl⟩, by trivial, h3, rfl⟩⟩
    | closeAtWith k d sp =>
      obtain ⟨c, h1, rfl, h3, h4⟩ := hboth k d (some sp) m he
      simp only [Sys.step, h1, Builder.closeAtWith, h4]
      exact ⟨_, rfl, .inr ⟨k, d, _, .inr rfl, by trivial, h3, rfl⟩⟩
    | «open» d => simp only [expected, newNode] at he; split at he <;> simp at he
    | openWith d sp => simp only [expected, newNode] at he; split at he <;> simp at he
    | tokenEmpty d => simp only [expected, newNode] at he; split at he <;> simp at he
    | tokenWith d sp => simp only [expected, newNode] at he; split at he <;> simp at he
    | token d len =>
      simp only [expected, newNode] at he
      split at he
      · simp at he
      · split at he <;> simp at he
    | close => simp only [expected] at he; split at he <;> simp at he
    | checkpoint => simp only [expected] at he; split at he <;> simp at he
    | setCursor j => simp [expected] at he

/-- Builder 1 is given a checkpoint of builder 0. -/
def foreignOps : List (WOp Nat) :=
  [.new Flavor.default, .new Flavor.default, .call 0 (.token 1 2), .call 0 .checkpoint,
    .call 1 (.closeAt 0 7)]

example := C25_failed_call_exact_partial (foreignOps.take 4) rfl (i := 1) rfl (.closeAt 0 7) rfl

/-- As a consequence, the node that is added next is not linked: it can only be reached by its id. -/
theorem C25_fails_foreign_unlinks :
    (World.init.run (foreignOps ++ [.call 1 (.token 8 1)])).2.getLast? =
      some (some (.ok (.id 1))) ∧
    ((World.init.run (foreignOps ++ [.call 1 (.token 8 1)])).1.builders[1]?.map fun p =>
      (p.2.build.toOption.map fun t => (t.len, forLoop (Walk.next t.nodes) id (t.len + 1) t.walk,
        t.get 1))) =
      some (some (2, some [0], some 1)) := ⟨rfl, rfl⟩

/-- C25 is false for foreign checkpoints: `close_at` reports `MissingNode` and has inserted a
node. Builder 0 makes one token and takes a checkpoint, which is then used with builder 1. -/
theorem C25_fails_foreign : ∃ w : World Nat,
    w = (World.init.run [.new Flavor.default, .new Flavor.default, .call 0 (.token 1 2),
      .call 0 .checkpoint]).1 ∧
    (w.step (.call 1 (.closeAt 0 7))).2 = some (.error (.missingNode 0)) ∧
    (w.builders[1]?.map fun p => p.2.tree.len) = some 0 ∧
    ((w.step (.call 1 (.closeAt 0 7))).1.builders[1]?.map fun p => p.2.tree.len) = some 1 :=
  ⟨_, rfl, rfl, rfl, rfl⟩

/-! ## C48 -/

/-- Calls that take or use no checkpoint. -/
def Op.noCheckpoint : Op α → Bool
  | .checkpoint | .closeAt _ _ | .closeAtWith _ _ _ => false
  | _ => true

/-- C48, partial: a call on one builder never changes another builder, and the result and effect of
a call that takes or uses no checkpoint do not depend on anything but the builder it is made on.
Missing: calls with checkpoints, for which it is false (`C48_fails_shared_checkpoint`). -/
theorem C48_clone_independent_partial (w w' : World α) (i j : Nat) (op op' : Op α) (hij : i ≠ j) :
    (w.step (.call i op)).1.builders[j]? = w.builders[j]? ∧
    (op'.noCheckpoint → w'.builders[j]? = w.builders[j]? →
      (w'.step (.call j op')).2 = (w.step (.call j op')).2 ∧
      (w'.step (.call j op')).1.builders[j]? = (w.step (.call j op')).1.builders[j]?) := by
  constructor
  · simp only [World.step]
    cases hb : w.builders[i]? with
    | none => rfl
    | some p => obtain ⟨fl, b⟩ := p; simp only [List.getElem?_set_ne hij]
  · intro hop he
    simp only [World.step, he]
    cases hb : w.builders[j]? with
    | none => rw [hb] at he; exact ⟨rfl, he.trans hb.symm⟩
    | some p =>
      obtain ⟨fl, b⟩ := p
      rw [hb] at he
      have h1 := (List.getElem?_eq_some_iff.1 he).1
      have h2 := (List.getElem?_eq_some_iff.1 hb).1
      simp only [List.getElem?_set_self h1, List.getElem?_set_self h2]
      cases op' <;> first | exact ⟨rfl, rfl⟩ | simp [Op.noCheckpoint] at hop

/-- The program for `C48_fails_shared_checkpoint`: a builder with a fresh checkpoint is cloned and
the clone takes its own checkpoint. -/
def cloneOps : List (WOp Nat) :=
  [.new Flavor.default, .call 0 .checkpoint, .clone 0, .call 1 .checkpoint, .call 1 (.token 1 1)]

example : (World.init.run cloneOps).2 =
    [none, some (.ok (.handle 0)), none, some (.ok (.handle 1)), some (.ok (.id 0))] := rfl

/-- C48 is false: each builder only uses the checkpoint that it returned itself (0 for the
original, 1 for the clone), but `token; close_at` on the original changes what `close_at` on the
clone does: without it, the clone's token becomes a child of the new node; with it, the new node
has no children. -/
theorem C48_fails_shared_checkpoint :
    (((World.init.run (cloneOps ++ [.call 1 (.closeAt 1 2)])).1.builders[1]?).map fun p =>
      nodeFirst p.2.tree.nodes 1) = some (some 0) ∧
    (((World.init.run (cloneOps ++ [.call 0 (.token 5 1), .call 0 (.closeAt 0 6),
      .call 1 (.closeAt 1 2)])).1.builders[1]?).map fun p =>
      nodeFirst p.2.tree.nodes 1) = some none :=
  ⟨rfl, rfl⟩

/-- C48 is false in another way: even if a node was made after the last checkpoint, so that the
clone gets a fresh one, and the clone only uses checkpoints it took itself, what the original does
with a checkpoint taken before the clone decides what `close_at` on the clone does. -/
theorem C48_fails_old_checkpoint :
    (((World.init.run ([.new Flavor.default, .call 0 .checkpoint, .call 0 (.token 1 1), .clone 0,
      .call 0 (.closeAt 0 6), .call 1 .checkpoint, .call 1 (.token 2 1),
      .call 1 (.closeAt 1 7)] : List (WOp Nat))).1.builders[1]?).map fun p =>
      nodeFirst p.2.tree.nodes 2) = some (some 1) ∧
    (((World.init.run ([.new Flavor.default, .call 0 .checkpoint, .call 0 (.token 1 1), .clone 0,
      .call 0 (.closeAt 0 6), .call 1 .checkpoint, .call 1 (.token 2 1), .call 0 (.closeAt 0 6),
      .call 1 (.closeAt 1 7)] : List (WOp Nat))).1.builders[1]?).map fun p =>
      nodeFirst p.2.tree.nodes 2) = some none :=
  ⟨rfl, rfl⟩

/-- C48, where it is true. A builder of a world is cloned, and its cached checkpoint (if it has one)
is out of date. Of the checkpoints from before the clone, `mine j` are those that builder `j` uses
from then on: no checkpoint is used by both, and none of them is the cached one. Apart from these,
each of the two only uses checkpoints that it takes itself. Then, however the calls on the two are
interleaved, the results of the calls on each of them are those of the same calls on the lone
builder that was cloned, and so is everything in the builder (but the number of the cached
checkpoint).
Missing: a checkpoint from before the clone that both use or that is the last one, and a cached
checkpoint that is up to date; for these it is false (`C48_fails_old_checkpoint`,
`C48_fails_common_checkpoint`, `C48_fails_shared_checkpoint`). -/
theorem C48_clone_alone_partial {fl : Flavor} {w : World α} {i : Nat} {b : Builder α}
    (hb : w.builders[i]? = some (fl, b))
    (hc : ∀ c, b.checkpoint = some c → ∃ cell, w.cells[c]? = some cell ∧ cell.node < b.tree.len)
    (mine : Nat → List Nat)
    (hm : ∀ j g, g ∈ mine j → ∃ c, w.handles[g]? = some c ∧ c < w.cells.length)
    (h1 : ∀ g ∈ mine i, ∀ g' ∈ mine w.builders.length, w.handles[g]? ≠ w.handles[g']?)
    (h2 : ∀ j g, g ∈ mine j → w.handles[g]? ≠ b.checkpoint)
    (calls : List (Nat × Op α)) (hp : ∀ p ∈ calls, p.1 = i ∨ p.1 = w.builders.length)
    (j : Nat) (hj : j = i ∨ j = w.builders.length) :
    let r := (w.step (.clone i)).1.runOwn mine calls
    let s := (⟨b, w.cells, (mine j).filterMap (fun g => w.handles[g]?)⟩ : Sys α).run fl
      (onBuilder j calls)
    onBuilder j r.2 = s.2.map some ∧
    ∃ c, r.1.builders[j]? = some (fl, { s.1.b with checkpoint := c }) := by
  have hmap : ∀ j, (mine j).map (fun g => w.handles[g]?) =
      ((mine j).filterMap (fun g => w.handles[g]?)).map some := by
    intro j
    have : ∀ l : List Nat, (∀ g ∈ l, ∃ c, w.handles[g]? = some c) →
        l.map (fun g => w.handles[g]?) = (l.filterMap (fun g => w.handles[g]?)).map some := by
      intro l
      induction l with
      | nil => intro _; rfl
      | cons g l ih =>
        intro h
        obtain ⟨c, hg⟩ := h g List.mem_cons_self
        simp only [List.map_cons, List.filterMap_cons, hg]
        rw [ih (fun g' h' => h g' (List.mem_cons_of_mem _ h'))]
    exact this _ (fun g hg => let ⟨c, h, _⟩ := hm j g hg; ⟨c, h⟩)
  have hT := Two.clone (fl := fl) (w := w) (i := i) (b := b) (own := mine)
    (U := fun c => ∃ g ∈ mine i, w.handles[g]? = some c)
    (V := fun c => ∃ g ∈ mine w.builders.length, w.handles[g]? = some c)
    (hs := (mine i).filterMap (fun g => w.handles[g]?))
    (ht := (mine w.builders.length).filterMap (fun g => w.handles[g]?)) hb hc
    (by
      rintro c ⟨g, hg, e⟩ ⟨g', hg', e'⟩
      exact h1 g hg g' hg' (e.trans e'.symm))
    (by rintro c hc' ⟨g, hg, e⟩; exact h2 i g hg (e.trans hc'.symm))
    (by rintro c hc' ⟨g, hg, e⟩; exact h2 _ g hg (e.trans hc'.symm))
    (hmap _) (hmap _)
    (by
      intro c hc'
      obtain ⟨g, hg, e⟩ := List.mem_filterMap.1 hc'
      obtain ⟨x, e', hx⟩ := hm i g hg
      rw [e] at e'; cases e'
      exact ⟨⟨g, hg, e⟩, hx⟩)
    (by
      intro c hc'
      obtain ⟨g, hg, e⟩ := List.mem_filterMap.1 hc'
      obtain ⟨x, e', hx⟩ := hm _ g hg
      rw [e] at e'; cases e'
      exact ⟨⟨g, hg, e⟩, hx⟩)
  obtain ⟨⟨h1, h2⟩, h3, h4⟩ := hT.run calls hp
  rcases hj with rfl | rfl
  · exact ⟨h1, h3⟩
  · exact ⟨h2, h4⟩

/-- C48, where it is true, from the start: any history of calls on a new builder that has made a
node after its last `checkpoint()`, then `clone`, then any interleaving of calls on the two. Each
uses new checkpoints of its own and those from before the clone that are listed for it in `mine`; a
node was made between a checkpoint that one uses and a checkpoint that the other uses, and between
any of them and the last one. -/
theorem C48_clone_partial {fl : Flavor} {ops : List (Op α)} (hs : Settled fl ops)
    (mine : Nat → List Nat)
    (h1 : ∀ g ∈ mine 0, ∀ g' ∈ mine 1, MadeBetween (Sys.init.run fl ops).2 g g' ∨
      MadeBetween (Sys.init.run fl ops).2 g' g)
    (h2 : ∀ j, ∀ g ∈ mine j,
      MadeBetween (Sys.init.run fl ops).2 g (returned (Sys.init.run fl ops).2 - 1))
    (calls : List (Nat × Op α)) (hp : ∀ p ∈ calls, p.1 = 0 ∨ p.1 = 1) (j : Nat)
    (hj : j = 0 ∨ j = 1) :
    let start := (Sys.init.run fl ops).1
    let r := (World.init.run (.new fl :: ops.map (.call 0) ++ [.clone 0])).1.runOwn mine calls
    let s := (⟨start.b, start.cells, (mine j).filterMap (fun g => start.handles[g]?)⟩ :
      Sys α).run fl (onBuilder j calls)
    onBuilder j r.2 = s.2.map some ∧
    ∃ t, r.1.builders[j]? = some (fl, t) ∧ t.tree = s.1.b.tree ∧ t.build = s.1.b.build := by
  have hw : (World.init.run (.new fl :: ops.map (.call 0) ++ [.clone 0] : List (WOp α))).1 =
      (World.step ⟨[(fl, (Sys.init.run fl ops).1.b)], (Sys.init.run fl ops).1.cells,
        (Sys.init.run fl ops).1.handles⟩ (.clone 0)).1 := by
    have happ : ∀ (l : List (WOp α)) (w : World α),
        (w.run (l ++ [.clone 0])).1 = ((w.run l).1.step (.clone 0)).1 := by
      intro l
      induction l with
      | nil => intro w; rfl
      | cons o l ih => intro w; exact ih _
    rw [happ]
    show ((World.run _ (ops.map (.call 0))).1.step (.clone 0)).1 = _
    congr 2
    exact world_calls ops Sys.init
  have hst := hs.stale
  obtain ⟨st, hA⟩ := (Alone.init (α := α) fl).run ops
  obtain ⟨l1, l2, l3⟩ := run_last (fl := fl) (ops := ops) (Alone.init (α := α) fl) rfl
  have hlast : (Sys.init.run fl ops).1.b.checkpoint =
      (Sys.init.run fl ops).1.handles[returned (Sys.init.run fl ops).2 - 1]? := by
    rw [l1, List.getLast?_eq_getElem?, l2]; simp [Sys.init]
  simp only
  rw [hw]
  obtain ⟨h1, c, h2⟩ := C48_clone_alone_partial (fl := fl)
    (w := ⟨[(fl, (Sys.init.run fl ops).1.b)], (Sys.init.run fl ops).1.cells,
        (Sys.init.run fl ops).1.handles⟩) (i := 0) rfl (fun c hc => by
      have hl := hA.good.ckpt c hc
      exact ⟨_, List.getElem?_eq_getElem hl, hst c _ (List.getElem?_eq_getElem hl)⟩) mine
    (fun j g hg => by
      obtain ⟨c, c', e, _, _⟩ := made_between (Alone.init (α := α) fl) _ _ (h2 j g hg)
      exact ⟨c, e, l3 (by simp [Sys.init]) c (List.mem_of_getElem? e)⟩)
    (fun g hg g' hg' => by
      rcases h1 g hg g' hg' with h | h
      · obtain ⟨c, c', e, e', hne⟩ := made_between (Alone.init (α := α) fl) _ _ h
        simp only [e, e']; simpa using hne
      · obtain ⟨c, c', e, e', hne⟩ := made_between (Alone.init (α := α) fl) _ _ h
        simp only [e, e']; simpa using hne.symm)
    (fun j g hg => by
      obtain ⟨c, c', e, e', hne⟩ := made_between (Alone.init (α := α) fl) _ _ (h2 j g hg)
      simp only [hlast, e, e']; simpa using hne)
    calls hp j hj
  exact ⟨h1, _, h2, rfl, rfl⟩

/-- C48 is false in a third way: a checkpoint from before the clone, followed by a node and another
checkpoint, that both use. Without the call on the clone, `close_at` on the original makes a parent
of the token; with it, a node without children. -/
theorem C48_fails_common_checkpoint :
    (((World.init.run ([.new Flavor.default, .call 0 .checkpoint, .call 0 (.token 1 1),
      .call 0 .checkpoint, .call 0 (.token 2 1), .clone 0,
      .call 0 (.closeAt 0 6)] : List (WOp Nat))).1.builders[0]?).map fun p =>
      nodeFirst p.2.tree.nodes 2) = some (some 0) ∧
    (((World.init.run ([.new Flavor.default, .call 0 .checkpoint, .call 0 (.token 1 1),
      .call 0 .checkpoint, .call 0 (.token 2 1), .clone 0, .call 1 (.closeAt 0 5),
      .call 0 (.closeAt 0 6)] : List (WOp Nat))).1.builders[0]?).map fun p =>
      nodeFirst p.2.tree.nodes 2) = some none :=
  ⟨rfl, rfl⟩

/-- A builder with an open node and a used checkpoint is cloned; then both take checkpoints,
wrap, fail and go on, interleaved. -/
def cloneHist : List (Op Nat) := [.open 1, .checkpoint, .token 2 1, .closeAt 0 3]

def cloneCalls : List (Nat × Op Nat) :=
  [(1, .checkpoint), (0, .token 4 2), (1, .token 5 1), (0, .checkpoint), (0, .token 6 1),
    (1, .closeAt 0 7), (0, .closeAt 0 8), (1, .close), (1, .close), (0, .closeAt 0 9), (0, .close)]

example : Settled Flavor.default cloneHist :=
  ⟨[.open 1, .checkpoint], [.token 2 1, .closeAt 0 3], rfl, by decide, .inr (by decide)⟩

example : onBuilder 0 ((World.init.run (.new Flavor.default :: cloneHist.map (.call 0) ++
      [.clone 0])).1.runOwn (fun _ => []) cloneCalls).2 =
    [some (.ok (.id 3)), some (.ok (.handle 0)), some (.ok (.id 4)), some (.ok (.id 5)),
      some (.ok (.id 6)), some (.ok .unit)] := rfl

example : onBuilder 1 ((World.init.run (.new Flavor.default :: cloneHist.map (.call 0) ++
      [.clone 0])).1.runOwn (fun _ => []) cloneCalls).2 =
    [some (.ok (.handle 0)), some (.ok (.id 3)), some (.ok (.id 4)), some (.ok .unit),
      some (.error .closeError)] := rfl

/-- Three checkpoints with nodes between them and a node after the last: the original goes on with
the first, the clone with the second. -/
def sharedHist : List (Op Nat) :=
  [.checkpoint, .token 1 1, .checkpoint, .token 2 1, .checkpoint, .token 3 1]

def sharedMine : Nat → List Nat
  | 0 => [0]
  | 1 => [1]
  | _ => []

def sharedCalls : List (Nat × Op Nat) :=
  [(1, .closeAt 0 7), (0, .checkpoint), (1, .token 5 1), (0, .closeAt 0 8), (1, .closeAt 0 9),
    (0, .token 4 1), (0, .closeAt 1 6)]

example : Settled Flavor.default sharedHist ∧
    MadeBetween (Sys.init.run Flavor.default sharedHist).2 0 1 ∧
    MadeBetween (Sys.init.run Flavor.default sharedHist).2 0 2 ∧
    MadeBetween (Sys.init.run Flavor.default sharedHist).2 1 2 ∧
    returned (Sys.init.run Flavor.default sharedHist).2 = 3 :=
  ⟨⟨[.checkpoint, .token 1 1, .checkpoint, .token 2 1, .checkpoint], [.token 3 1], rfl, by decide,
    .inr (by decide)⟩, ⟨0, 1, 2, .ok (.id 0), by decide, by decide, rfl, rfl, rfl, rfl⟩,
    ⟨0, 1, 4, .ok (.id 0), by decide, by decide, rfl, rfl, rfl, rfl⟩,
    ⟨2, 3, 4, .ok (.id 1), by decide, by decide, rfl, rfl, rfl, rfl⟩, rfl⟩

example : onBuilder 0 ((World.init.run (.new Flavor.default :: sharedHist.map (.call 0) ++
      [.clone 0])).1.runOwn sharedMine sharedCalls).2 =
    [some (.ok (.handle 1)), some (.ok (.id 3)), some (.ok (.id 4)), some (.ok (.id 5))] := rfl

/-- C48, where it is true, for whole programs: any number of builders and of clones, of clones of
clones and so on, in which no builder gets at a checkpoint of another one (`Separate`). The result of every
call is that of the same call on a lone builder with the same history (the calls on the builder and,
before it was cloned, on the one it was cloned from), and so are the tree and what `build` returns in
the end.
Missing: programs that are not `Separate`, for which it is false (`C48_fails_old_checkpoint`,
`C48_fails_common_checkpoint`, `C48_fails_shared_checkpoint`). -/
theorem C48_programs_partial {prog : List (WOp α)} {may : List (List Nat)} (h : Separate prog may) :
    (∀ (k i : Nat) (op : Op α), prog[k]? = some (.call i op) →
      ∃ fl ops, (histories (prog.take k))[i]? = some (fl, ops) ∧
        (play prog).outs[k]? = some (some ((Sys.init.run fl ops).1.step fl op).2)) ∧
    (∀ (i : Nat) fl ops, (histories prog)[i]? = some (fl, ops) →
      ∃ b, (play prog).world.builders[i]? = some (fl, b) ∧
        b.tree = (Sys.init.run fl ops).1.b.tree ∧ b.build = (Sys.init.run fl ops).1.b.build) := by
  obtain ⟨⟨_, K, φ, _, hT, _⟩, _, h3⟩ := h.family
  constructor
  · intro k i op hk
    obtain ⟨x, x1, x2⟩ := h3 k i op hk
    exact ⟨x.1, x.2, x1, x2⟩
  · intro i fl ops hi
    obtain ⟨B, ow, m, b1, _, _, b4⟩ := hT i _ hi
    have hb : B = (Sys.init.run fl ops).1.b.ck _ := b4.bld
    exact ⟨B, b1, by rw [hb]; rfl, by rw [hb]; rfl⟩

/-- A builder is cloned, the clone is cloned, a fourth one is new; checkpoints from before the clones
are shared out and used in turns. -/
def familyProg : List (WOp Nat) :=
  [.new Flavor.default, .call 0 .checkpoint, .call 0 (.token 1 1), .call 0 .checkpoint,
    .call 0 (.token 2 1), .call 0 .checkpoint, .call 0 (.token 3 1), .clone 0,
    .call 1 .checkpoint, .call 0 (.closeAt 0 7), .call 1 (.token 4 1), .clone 1,
    .call 2 (.closeAt 1 8), .new Flavor.default, .call 3 (.open 9), .call 0 (.closeAt 0 7),
    .call 2 (.closeAt 1 8), .call 1 .close]

example : ∃ may, Separate familyProg may := by
  have no' : ∀ {op : Op Nat} {m : List Nat}, op.isCloseAt = false → ∀ n d e, UsesAt op n d e → n ∈ m := by
    rintro op m h n d e (_ | _) <;> simp [Op.isCloseAt] at h
  have f1 := Separate.new Flavor.default (.start (α := Nat))
  have f2 := f1.call 0 .checkpoint rfl rfl (no' rfl)
  have f3 := f2.call 0 (.token 1 1) rfl rfl (no' rfl)
  have f4 := f3.call 0 .checkpoint rfl rfl (no' rfl)
  have f5 := f4.call 0 (.token 2 1) rfl rfl (no' rfl)
  have f6 := f5.call 0 .checkpoint rfl rfl (no' rfl)
  have f7 := f6.call 0 (.token 3 1) rfl rfl (no' rfl)
  have f8 := f7.clone (fl := Flavor.default) (ops := sharedHist) (m := [0, 1, 2]) 0 [0] [1] rfl rfl
    ⟨[.checkpoint, .token 1 1, .checkpoint, .token 2 1, .checkpoint], [.token 3 1], rfl, by decide,
      .inr (by decide)⟩
    (by
      rintro n (h | h)
      · obtain rfl : n = 0 := by simpa using h
        exact ⟨by decide, 0, 1, 4, .ok (.id 0), by decide, by decide, rfl, rfl, rfl, rfl⟩
      · obtain rfl : n = 1 := by simpa using h
        exact ⟨by decide, 2, 3, 4, .ok (.id 1), by decide, by decide, rfl, rfl, rfl, rfl⟩)
    (by
      rintro n h n' h'
      obtain rfl : n = 0 := by simpa using h
      obtain rfl : n' = 1 := by simpa using h'
      exact .inl ⟨0, 1, 2, .ok (.id 0), by decide, by decide, rfl, rfl, rfl, rfl⟩)
  have f9 := f8.call 1 .checkpoint rfl rfl (no' rfl)
  have f10 := f9.call (m := [0]) 0 (.closeAt 0 7) rfl rfl (by rintro n d e ⟨_⟩; decide)
  have f11 := f10.call 1 (.token 4 1) rfl rfl (no' rfl)
  have f12 := f11.clone (fl := Flavor.default)
    (ops := sharedHist ++ [.checkpoint, .token 4 1]) (m := [1, 3]) 1 [] [1] rfl rfl
    ⟨sharedHist ++ [.checkpoint], [.token 4 1], rfl, by decide, .inr (by decide)⟩
    (by
      rintro n (h | h)
      · simp at h
      · obtain rfl : n = 1 := by simpa using h
        exact ⟨by decide, 2, 3, 6, .ok (.id 1), by decide, by decide, rfl, rfl, rfl, rfl⟩)
    (by simp)
  have f13 := f12.call (m := [1]) 2 (.closeAt 1 8) rfl rfl (by rintro n d e ⟨_⟩; decide)
  have f14 := f13.new Flavor.default
  have f15 := f14.call 3 (.open 9) rfl rfl (no' rfl)
  have f16 := f15.call (m := [0]) 0 (.closeAt 0 7) rfl rfl (by rintro n d e ⟨_⟩; decide)
  have f17 := f16.call (m := [1]) 2 (.closeAt 1 8) rfl rfl (by rintro n d e ⟨_⟩; decide)
  have f18 := f17.call 1 .close rfl rfl (no' rfl)
  exact ⟨_, f18⟩

example : (play familyProg).outs.drop 8 =
    [some (.ok (.handle 3)), some (.ok (.id 3)), some (.ok (.id 3)), none, some (.ok (.id 4)), none,
      some (.ok (.id 0)), some (.ok (.id 4)), some (.ok (.id 5)), some (.error .closeError)] := rfl

end Syntree
