import Verif.Proof.Full

/-! `ChangeSet::modify` with failing storage. -/

namespace Syntree

variable {α : Type} {fl : Flavor} {ft : Faults}

/-- The tree so far, before the node is pushed. -/
def ModState.linked (st : ModState α) (nodeId : Nat) (first : Bool) :
    Tree α × RefactorWalk × Option Nat :=
  let out := st.output
  let out := if st.refactor.parents.isEmpty then
      { out with
        first := if out.first.isNone then some nodeId else out.first
        last := some nodeId }
    else out
  if first then (out, st.refactor, none)
  else
    (out.modifyOpt st.refactor.prev (fun l => { l with next := some nodeId }),
      { st.refactor with prev := none }, st.refactor.prev)

theorem linked_indexes (st : ModState α) (nodeId : Nat) (first : Bool) :
    (st.linked nodeId first).1.indexes = st.output.indexes := by
  unfold ModState.linked
  cases first <;> simp only [Bool.false_eq_true, if_false, if_true, modifyOpt_keeps_indexes] <;> split <;> rfl

theorem linked_length (st : ModState α) (nodeId : Nat) (first : Bool) :
    (st.linked nodeId first).1.nodes.length = st.output.nodes.length := by
  unfold ModState.linked
  cases first <;> simp only [Bool.false_eq_true, if_false, if_true, modifyOpt_length] <;> split <;> rfl

/-- The last part of the loop body. -/
def ModState.finish (nodes : Slice α) (links : Links α) (refactor : RefactorWalk) (prev : Option Nat)
    (nodeId node : Nat) (out : Tree α) (cursor : Nat) (span : Span) : ModState α :=
  let parent := refactor.parents.head?.map (·.2)
  let out := out.modifyOpt parent (fun p =>
    { p with
      first := if p.first.isNone then some nodeId else p.first
      last := some nodeId
      span := { p.span with stop := span.stop } })
  let out := out.push
    { data := links.data, span := span, parent := parent, prev := prev, next := none,
      first := none, last := none }
  let (refactor, current) := refactor.step nodes node nodeId
  ⟨out, refactor, cursor, current⟩

theorem finish_length (nodes : Slice α) (links : Links α) (refactor : RefactorWalk) (prev : Option Nat)
    (nodeId node : Nat) (out : Tree α) (cursor : Nat) (span : Span) :
    (ModState.finish nodes links refactor prev nodeId node out cursor span).output.nodes.length =
      out.nodes.length + 1 ∧
    (ModState.finish nodes links refactor prev nodeId node out cursor span).output.indexes =
      out.indexes := by
  unfold ModState.finish
  simp only [Tree.push, List.length_append, modifyOpt_length, modifyOpt_keeps_indexes]
  exact ⟨rfl, trivial⟩

/-- Does the loop body push an index entry? -/
def Links.tokenLike (l : Links α) : Bool := l.first.isNone && ! l.span.isEmpty

theorem emit_split (nodes : Slice α) (st : ModState α) (nodeId node : Nat) (first : Bool) :
    ModState.emit fl nodes st nodeId node first =
      match nodes[node]? with
      | none => .error (.missingNode node)
      | some links =>
        if links.tokenLike then
          match fl.ik.checkedAddLen st.cursor (links.span.len fl.ik) with
          | none => .error .overflow
          | some c => .ok (ModState.finish nodes links (st.linked nodeId first).2.1
              (st.linked nodeId first).2.2 nodeId node
              ((st.linked nodeId first).1.pushIndex fl ⟨st.cursor, nodeId⟩) c (Span.new st.cursor c))
        else .ok (ModState.finish nodes links (st.linked nodeId first).2.1
              (st.linked nodeId first).2.2 nodeId node
              (st.linked nodeId first).1 st.cursor (Span.point st.cursor)) := by
  unfold ModState.emit
  cases nodes[node]? with
  | none => rfl
  | some links =>
    cases first <;> cases hb : (links.first.isNone && ! links.span.isEmpty) <;>
      simp only [Links.tokenLike, hb, if_true, Bool.false_eq_true, if_false, ModState.finish,
        ModState.linked] <;>
      (try cases fl.ik.checkedAddLen st.cursor (links.span.len fl.ik)) <;> rfl

theorem emitF_split (nodes : Slice α) (st : ModState α) (tr : Tries) (nodeId node : Nat) (first : Bool) :
    ModState.emitF fl ft nodes st tr nodeId node first =
      match nodes[node]? with
      | none => .error (.base (.missingNode node))
      | some links =>
        if links.tokenLike then
          if fl.keepIdx = true ∧ ft.index tr.index st.output.indexes.length = true then .error .flavor
          else
          match fl.ik.checkedAddLen st.cursor (links.span.len fl.ik) with
          | none => .error (.base .overflow)
          | some c =>
            if ft.node tr.node st.output.nodes.length = true then .error .flavor
            else .ok (ModState.finish nodes links (st.linked nodeId first).2.1
              (st.linked nodeId first).2.2 nodeId node
              ((st.linked nodeId first).1.pushIndex fl ⟨st.cursor, nodeId⟩) c (Span.new st.cursor c),
              ⟨tr.node + 1, tr.index + 1⟩)
        else if ft.node tr.node st.output.nodes.length = true then .error .flavor
        else .ok (ModState.finish nodes links (st.linked nodeId first).2.1
              (st.linked nodeId first).2.2 nodeId node
              (st.linked nodeId first).1 st.cursor (Span.point st.cursor), ⟨tr.node + 1, tr.index⟩) := by
  unfold ModState.emitF
  cases nodes[node]? with
  | none => rfl
  | some links =>
    show ModState.emitRestF fl ft nodes st.cursor tr links nodeId node (st.linked nodeId first) = _
    have hi := linked_indexes st nodeId first
    have hl := linked_length st nodeId first
    generalize st.linked nodeId first = q at hi hl
    obtain ⟨out, refactor, prev⟩ := q
    simp only at hi hl ⊢
    unfold ModState.emitRestF
    simp only
    cases hb : (links.first.isNone && ! links.span.isEmpty) with
    | false =>
      simp only [Links.tokenLike, hb, Bool.false_eq_true, if_false, Tree.pushF, modifyOpt_length, hl]
      cases ft.node tr.node st.output.nodes.length <;> rfl
    | true =>
      simp only [Links.tokenLike, hb, if_true]
      rcases pushIndexF_cases (fl := fl) (ft := ft) out tr.index ⟨st.cursor, nodeId⟩ with
        ⟨hk, hx, ex⟩ | ⟨hx, ex⟩
      · rw [hi] at hx
        simp [ex, hk, hx]
      · rw [hi] at hx
        have hc : ¬ (fl.keepIdx = true ∧ ft.index tr.index st.output.indexes.length = true) := by
          rintro ⟨h1, h2⟩
          rcases hx with hx | hx
          · rw [hx] at h1; simp at h1
          · rw [hx] at h2; simp at h2
        rw [if_neg hc]
        simp only [ex]
        cases fl.ik.checkedAddLen st.cursor (links.span.len fl.ik) with
        | none => rfl
        | some c =>
          simp only [Tree.pushF, modifyOpt_length, pushIndex_nodes, hl]
          cases ft.node tr.node st.output.nodes.length <;> rfl

theorem emit_conserves (nodes : Slice α) (st : ModState α) (tr : Tries) (nodeId node : Nat)
    (first : Bool) :
    ModState.emitF fl ft nodes st tr nodeId node first = .error .flavor ∨
    (∃ e, ModState.emit fl nodes st nodeId node first = .error e ∧
      ModState.emitF fl ft nodes st tr nodeId node first = .error (.base e)) ∨
    (∃ st' tr', ModState.emit fl nodes st nodeId node first = .ok st' ∧
      ModState.emitF fl ft nodes st tr nodeId node first = .ok (st', tr')) := by
  rw [emit_split, emitF_split]
  cases nodes[node]? with
  | none => exact .inr (.inl ⟨_, rfl, rfl⟩)
  | some links =>
    simp only
    split
    · split
      · exact .inl rfl
      · cases fl.ik.checkedAddLen st.cursor (links.span.len fl.ik) with
        | none => exact .inr (.inl ⟨_, rfl, rfl⟩)
        | some c =>
          simp only
          split
          · exact .inl rfl
          · exact .inr (.inr ⟨_, _, rfl, rfl⟩)
    · split
      · exact .inl rfl
      · exact .inr (.inr ⟨_, _, rfl, rfl⟩)

theorem loop_conserves (changes : List Nat) (nodes : Slice α) (fuel : Nat) (st : ModState α)
    (tr : Tries) :
    ModState.loopF fl ft changes nodes fuel st tr = .error .flavor ∨
    ModState.loopF fl ft changes nodes fuel st tr =
      (ModState.loop fl changes nodes fuel st).mapError .base := by
  induction fuel generalizing st tr with
  | zero => exact .inr rfl
  | succ fuel ih =>
    have key : ∀ (st : ModState α) (nodeId node : Nat) (first : Bool),
        (match ModState.emitF fl ft nodes st tr nodeId node first with
          | .error e => (.error e : Except FErr (ModState α))
          | .ok (st, tr) => ModState.loopF fl ft changes nodes fuel st tr) = .error .flavor ∨
        (match ModState.emitF fl ft nodes st tr nodeId node first with
          | .error e => (.error e : Except FErr (ModState α))
          | .ok (st, tr) => ModState.loopF fl ft changes nodes fuel st tr) =
        Except.mapError FErr.base (match ModState.emit fl nodes st nodeId node first with
          | .error e => .error e
          | .ok st => ModState.loop fl changes nodes fuel st) := by
      intro st nodeId node first
      rcases emit_conserves (fl := fl) (ft := ft) nodes st tr nodeId node first with
        h | ⟨e, h1, h2⟩ | ⟨st', tr', h1, h2⟩
      · rw [h]; exact .inl rfl
      · rw [h1, h2]; exact .inr rfl
      · rw [h1, h2]; exact ih st' tr'
    unfold ModState.loopF ModState.loop
    cases st.current with
    | none => exact .inr rfl
    | some p =>
      obtain ⟨node, first⟩ := p
      simp only
      cases ptrNew fl.width st.output.len with
      | none => exact .inr rfl
      | some nodeId =>
        simp only
        split
        · generalize st.refactor.skipSubtree nodes node first = q
          obtain ⟨refactor, o⟩ := q
          cases o with
          | none => exact ih _ _
          | some x => obtain ⟨node, first⟩ := x; exact key _ _ _ _
        · exact key _ _ _ _

/-- `modify` with failing storage fails with the error of the storage, or does what it does with
storage that never fails. -/
theorem modify_conserves (capacity : Nat) (c : ChangeSet) (t : Tree α) :
    c.modifyF fl ft capacity t = .error .flavor ∨
    c.modifyF fl ft capacity t = (c.modify fl t).mapError .base := by
  unfold ChangeSet.modifyF ChangeSet.modify
  split
  · exact .inl rfl
  · simp only
    rcases loop_conserves (fl := fl) (ft := ft) c.changes t.nodes
      ((c.changes.length + 1) * (t.nodes.length + 1) + 1)
      ⟨Tree.empty, ⟨[], none⟩, 0, t.firstNode.map (·, false)⟩ ⟨0, 0⟩ with h | h
    · rw [h]; exact .inl rfl
    · rw [h]
      generalize ModState.loop fl c.changes t.nodes
        ((c.changes.length + 1) * (t.nodes.length + 1) + 1)
        ⟨Tree.empty, ⟨[], none⟩, 0, t.firstNode.map (·, false)⟩ = r
      cases r <;> exact .inr rfl

/-! ## A fixed capacity -/

/-- Does the output fit? -/
def Tree.Fits (t : Tree α) (n m : Nat) : Prop := t.nodes.length ≤ n ∧ t.indexes.length ≤ m

instance (t : Tree α) (n m : Nat) : Decidable (t.Fits n m) := inferInstanceAs (Decidable (_ ∧ _))

theorem emit_fits {n m : Nat} {nodes : Slice α} {st st' : ModState α} {nodeId node : Nat}
    {first : Bool} (tr : Tries) (hf : st.output.Fits n m)
    (h : ModState.emit fl nodes st nodeId node first = .ok st') :
    (st.output.nodes.length ≤ st'.output.nodes.length ∧
      st.output.indexes.length ≤ st'.output.indexes.length) ∧
    ((st'.output.Fits n m ∧ ∃ tr', ModState.emitF fl (.capacity n m) nodes st tr nodeId node first =
        .ok (st', tr')) ∨
      (¬ st'.output.Fits n m ∧
        ModState.emitF fl (.capacity n m) nodes st tr nodeId node first = .error .flavor)) := by
  obtain ⟨hf1, hf2⟩ := hf
  rw [emit_split] at h
  rw [emitF_split]
  cases hn : nodes[node]? with
  | none => simp [hn] at h
  | some links =>
    simp only [hn] at h ⊢
    have hi := linked_indexes st nodeId first
    have hl := linked_length st nodeId first
    by_cases htk : links.tokenLike = true
    · rw [if_pos htk] at h ⊢
      cases hc : fl.ik.checkedAddLen st.cursor (links.span.len fl.ik) with
      | none => simp [hc] at h
      | some c =>
        simp only [hc, Except.ok.injEq] at h ⊢
        obtain ⟨e1, e2⟩ := finish_length nodes links (st.linked nodeId first).2.1
              (st.linked nodeId first).2.2 nodeId node
              ((st.linked nodeId first).1.pushIndex fl ⟨st.cursor, nodeId⟩) c (Span.new st.cursor c)
        rw [h] at e1 e2 ⊢
        rw [pushIndex_nodes, hl] at e1
        simp only [Tree.Fits, Faults.capacity, decide_eq_true_eq]
        cases hk : fl.keepIdx with
        | false =>
          have e3 : st'.output.indexes = st.output.indexes := by
            rw [e2, Tree.pushIndex, hk]; simp [hi]
          rw [e1, e3]
          refine ⟨⟨by omega, by omega⟩, ?_⟩
          simp only [Bool.false_eq_true, false_and, if_false]
          by_cases hlt : n ≤ st.output.nodes.length
          · rw [if_pos hlt]; exact .inr ⟨by omega, rfl⟩
          · rw [if_neg hlt]; exact .inl ⟨⟨by omega, by omega⟩, _, rfl⟩
        | true =>
          have e3 : st'.output.indexes.length = st.output.indexes.length + 1 := by
            rw [e2, Tree.pushIndex, hk]; simp [hi]
          rw [e1, e3]
          refine ⟨⟨by omega, by omega⟩, ?_⟩
          simp only [true_and]
          by_cases hm : m ≤ st.output.indexes.length
          · rw [if_pos hm]; exact .inr ⟨by omega, rfl⟩
          · rw [if_neg hm]
            by_cases hlt : n ≤ st.output.nodes.length
            · rw [if_pos hlt]; exact .inr ⟨by omega, rfl⟩
            · rw [if_neg hlt]; exact .inl ⟨⟨by omega, by omega⟩, _, rfl⟩
    · rw [if_neg htk] at h ⊢
      simp only [Except.ok.injEq] at h
      obtain ⟨e1, e2⟩ := finish_length nodes links (st.linked nodeId first).2.1
              (st.linked nodeId first).2.2 nodeId node
              (st.linked nodeId first).1 st.cursor (Span.point st.cursor)
      rw [h] at e1 e2 ⊢
      rw [hl] at e1
      rw [hi] at e2
      simp only [Tree.Fits, Faults.capacity, decide_eq_true_eq, e1, e2]
      refine ⟨⟨by omega, by omega⟩, ?_⟩
      by_cases hlt : n ≤ st.output.nodes.length
      · rw [if_pos hlt]; exact .inr ⟨by omega, rfl⟩
      · rw [if_neg hlt]; exact .inl ⟨⟨by omega, by omega⟩, _, rfl⟩

theorem emit_grows {nodes : Slice α} {st st' : ModState α} {nodeId node : Nat}
    {first : Bool} (h : ModState.emit fl nodes st nodeId node first = .ok st') :
    st.output.nodes.length ≤ st'.output.nodes.length ∧
      st.output.indexes.length ≤ st'.output.indexes.length :=
  (emit_fits (n := st.output.nodes.length) (m := st.output.indexes.length) ⟨0, 0⟩
    ⟨Nat.le_refl _, Nat.le_refl _⟩ h).1

theorem loop_grows {changes : List Nat} {nodes : Slice α} (fuel : Nat)
    {st st' : ModState α} (h : ModState.loop fl changes nodes fuel st = .ok st') :
    st.output.nodes.length ≤ st'.output.nodes.length ∧
      st.output.indexes.length ≤ st'.output.indexes.length := by
  induction fuel generalizing st with
  | zero => simp [ModState.loop] at h
  | succ fuel ih =>
    have key : ∀ (st : ModState α) (nodeId node : Nat) (first : Bool),
        (match ModState.emit fl nodes st nodeId node first with
          | .error e => (.error e : Except Err (ModState α))
          | .ok st => ModState.loop fl changes nodes fuel st) = .ok st' →
        st.output.nodes.length ≤ st'.output.nodes.length ∧
          st.output.indexes.length ≤ st'.output.indexes.length := by
      intro st nodeId node first h
      cases he : ModState.emit fl nodes st nodeId node first with
      | error e => simp [he] at h
      | ok st2 =>
        simp only [he] at h
        have h1 := emit_grows he
        have h2 := ih h
        omega
    unfold ModState.loop at h
    cases hc : st.current with
    | none =>
      simp only [hc, Except.ok.injEq] at h
      subst h; omega
    | some p =>
      obtain ⟨node, first⟩ := p
      simp only [hc] at h
      cases hp : ptrNew fl.width st.output.len with
      | none => simp [hp] at h
      | some nodeId =>
        simp only [hp] at h
        split at h
        · generalize st.refactor.skipSubtree nodes node first = q at h
          obtain ⟨refactor, o⟩ := q
          cases o with
          | none => exact ih (st := { st with refactor := refactor, current := none }) h
          | some x =>
            obtain ⟨node, first⟩ := x
            exact key { st with refactor := refactor } _ _ _ h
        · exact key _ _ _ _ h

theorem loop_fits {n m : Nat} {changes : List Nat} {nodes : Slice α} (fuel : Nat)
    {st st' : ModState α} (tr : Tries) (hf : st.output.Fits n m)
    (h : ModState.loop fl changes nodes fuel st = .ok st') :
    ModState.loopF fl (.capacity n m) changes nodes fuel st tr =
      if st'.output.Fits n m then .ok st' else .error .flavor := by
  induction fuel generalizing st tr with
  | zero => simp [ModState.loop] at h
  | succ fuel ih =>
    have key : ∀ (st : ModState α) (nodeId node : Nat) (first : Bool), st.output.Fits n m →
        (match ModState.emit fl nodes st nodeId node first with
          | .error e => (.error e : Except Err (ModState α))
          | .ok st => ModState.loop fl changes nodes fuel st) = .ok st' →
        (match ModState.emitF fl (.capacity n m) nodes st tr nodeId node first with
          | .error e => (.error e : Except FErr (ModState α))
          | .ok (st, tr) => ModState.loopF fl (.capacity n m) changes nodes fuel st tr) =
        if st'.output.Fits n m then .ok st' else .error .flavor := by
      intro st nodeId node first hf h
      cases he : ModState.emit fl nodes st nodeId node first with
      | error e => simp [he] at h
      | ok st2 =>
        simp only [he] at h
        obtain ⟨_, ⟨h1, tr', h2⟩ | ⟨h1, h2⟩⟩ := emit_fits tr hf he
        · rw [h2]; exact ih tr' h1 h
        · rw [h2]
          have := loop_grows _ h
          have hn : ¬ st'.output.Fits n m := by
            intro hx
            apply h1
            unfold Tree.Fits at hx ⊢
            omega
          rw [if_neg hn]
    unfold ModState.loop at h
    unfold ModState.loopF
    cases hc : st.current with
    | none =>
      simp only [hc, Except.ok.injEq] at h ⊢
      subst h; rw [if_pos hf]
    | some p =>
      obtain ⟨node, first⟩ := p
      simp only [hc] at h ⊢
      cases hp : ptrNew fl.width st.output.len with
      | none => simp [hp] at h
      | some nodeId =>
        simp only [hp] at h ⊢
        split at h
        · next hmem =>
          rw [if_pos hmem]
          generalize st.refactor.skipSubtree nodes node first = q at h ⊢
          obtain ⟨refactor, o⟩ := q
          cases o with
          | none => exact ih (st := { st with refactor := refactor, current := none }) tr hf h
          | some x =>
            obtain ⟨node, first⟩ := x
            exact key { st with refactor := refactor } _ _ _ hf h
        · next hmem =>
          rw [if_neg hmem]
          exact key _ _ _ _ hf h

/-- `modify` with storage of fixed capacity succeeds exactly if the result fits. -/
theorem modify_fits {n m : Nat} (capacity : Nat) {c : ChangeSet} {t t' : Tree α}
    (h : c.modify fl t = .ok t') :
    c.modifyF fl (.capacity n m) capacity t =
      if t'.nodes.length ≤ n ∧ t'.indexes.length ≤ m then .ok t' else .error .flavor := by
  unfold ChangeSet.modify at h
  unfold ChangeSet.modifyF
  simp only [Faults.capacity, Bool.false_eq_true, if_false]
  simp only at h
  cases hl : ModState.loop fl c.changes t.nodes
        ((c.changes.length + 1) * (t.nodes.length + 1) + 1)
        ⟨Tree.empty, ⟨[], none⟩, 0, t.firstNode.map (·, false)⟩ with
  | error e => simp [hl] at h
  | ok st =>
    simp only [hl, Except.ok.injEq] at h
    have := loop_fits (n := n) (m := m) _ ⟨0, 0⟩ ⟨Nat.zero_le _, Nat.zero_le _⟩ hl
    simp only [Faults.capacity] at this
    rw [this]
    subst h
    by_cases hx : st.output.Fits n m
    · rw [if_pos hx, if_pos (show _ ∧ _ from hx)]
    · rw [if_neg hx, if_neg (show ¬ (_ ∧ _) from hx)]

end Syntree
