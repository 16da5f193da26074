import Verif.Spec.Fault
import Verif.Proof.Outcome

/-! The builder with failing storage against the builder whose storage never fails. -/

namespace Syntree

variable {α : Type} {fl : Flavor} {ft : Faults}

/-- What a call with storage that never fails returns, as a result of a call with failing storage. -/
abbrev Except.lifted {β : Type} (r : Except Err β) : Except FErr β := r.mapError .base

theorem lifted_ne_flavor {β : Type} (r : Except Err β) : r.mapError FErr.base ≠ .error .flavor := by
  cases r <;> simp [Except.mapError]

theorem map_lifted {β γ : Type} (g : β → γ) (r : Except Err β) :
    (r.mapError FErr.base).map g = (r.map g).mapError .base := by
  cases r <;> rfl

theorem map_flavor {β γ : Type} {g : β → γ} {r : Except FErr β} :
    r.map g = .error .flavor ↔ r = .error .flavor := by
  cases r <;> simp [Except.map]

/-- The outcomes of `insert`: the storage is not asked, or fails, or takes the node. -/
theorem FBuilder.insert_cases (s : FBuilder α) (d : α) (sp : Span) :
    ((ptrNew fl.width s.b.tree.len = none ∧ s.insert fl ft d sp = (s, .error (.base .overflow)) ∧
        s.b.insert fl d sp = (s.b, .error .overflow)) ∨
      (∃ new, ptrNew fl.width s.b.tree.len = some new ∧
        ft.node s.tries.node s.b.tree.nodes.length = true ∧
        s.insert fl ft d sp = (⟨{ s.b with sibling := none },
          { s.tries with node := s.tries.node + 1 }⟩, .error .flavor) ∧
        (s.b.insert fl d sp).2 = .ok new)) ∨
    (∃ new, ptrNew fl.width s.b.tree.len = some new ∧
      ft.node s.tries.node s.b.tree.nodes.length = false ∧
      s.insert fl ft d sp = (⟨(s.b.insert fl d sp).1,
        { s.tries with node := s.tries.node + 1 }⟩, .ok new) ∧
      (s.b.insert fl d sp).2 = .ok new) := by
  unfold FBuilder.insert Builder.insert Tree.pushF
  cases hp : ptrNew fl.width s.b.tree.len with
  | none => exact .inl (.inl ⟨rfl, rfl, rfl⟩)
  | some new =>
    cases hf : ft.node s.tries.node s.b.tree.nodes.length with
    | true => exact .inl (.inr ⟨new, rfl, rfl, by simp [hf], rfl⟩)
    | false => exact .inr ⟨new, rfl, rfl, by simp [hf]; rfl, rfl⟩

/-- A method that does not report a failure of the storage does what it does with storage that never
fails. -/
def Conserves {β : Type} (r : FRes α β) (r' : Res α β) : Prop :=
  r.2 = .error .flavor ∨ (r.1.b = r'.1 ∧ r.2 = r'.2.mapError .base)

theorem FBuilder.insert_conserves (s : FBuilder α) (d : α) (sp : Span) :
    Conserves (s.insert fl ft d sp) (s.b.insert fl d sp) := by
  rcases s.insert_cases (fl := fl) (ft := ft) d sp with
    (⟨_, e, e'⟩ | ⟨new, _, _, e, _⟩) | ⟨new, _, _, e, e'⟩
  · right; rw [e, e']; exact ⟨rfl, rfl⟩
  · left; rw [e]
  · right; rw [e, e']; exact ⟨rfl, rfl⟩

theorem FBuilder.openWith_conserves (s : FBuilder α) (d : α) (sp : Span) :
    Conserves (s.openWith fl ft d sp) (s.b.openWith fl d sp) := by
  unfold FBuilder.openWith Builder.openWith
  rcases s.insert_conserves (fl := fl) (ft := ft) d sp with h | ⟨h1, h2⟩
  · generalize s.insert fl ft d sp = r at h ⊢
    obtain ⟨s', o⟩ := r
    simp only at h
    subst h
    exact .inl rfl
  · generalize s.insert fl ft d sp = r at h1 h2 ⊢
    generalize s.b.insert fl d sp = r' at h1 h2 ⊢
    obtain ⟨s', o⟩ := r
    obtain ⟨b', o'⟩ := r'
    simp only at h1 h2
    subst h1 h2
    cases o' with
    | error e => exact .inr ⟨rfl, rfl⟩
    | ok i => exact .inr ⟨rfl, rfl⟩

theorem pushIndexF_cases (t : Tree α) (k : Nat) (i : TreeIndex) :
    (fl.keepIdx = true ∧ ft.index k t.indexes.length = true ∧ t.pushIndexF fl ft k i = none) ∨
      ((fl.keepIdx = false ∨ ft.index k t.indexes.length = false) ∧
        t.pushIndexF fl ft k i = some (t.pushIndex fl i)) := by
  unfold Tree.pushIndexF
  cases fl.keepIdx <;> cases ft.index k t.indexes.length <;> simp

theorem FBuilder.token_conserves (s : FBuilder α) (d : α) (len : Nat) :
    Conserves (s.token fl ft d len) (s.b.token fl d len) := by
  unfold FBuilder.token Builder.token
  simp only
  generalize hadv : (if fl.ik.lenIsEmpty len then some s.b
    else match fl.ik.checkedAddLen s.b.cursor len with
      | none => none
      | some c => some { s.b with
          cursor := c, tree := { s.b.tree with span := { s.b.tree.span with stop := c } } }) = adv
  cases adv with
  | none => exact .inr ⟨rfl, rfl⟩
  | some b =>
    simp only
    rcases FBuilder.insert_conserves (fl := fl) (ft := ft) { s with b := b } d
      (Span.new s.b.cursor b.cursor) with h | ⟨h1, h2⟩
    · generalize FBuilder.insert fl ft { s with b := b } d (Span.new s.b.cursor b.cursor) = r at h ⊢
      obtain ⟨s', o⟩ := r
      simp only at h
      subst h
      exact .inl rfl
    · generalize FBuilder.insert fl ft { s with b := b } d (Span.new s.b.cursor b.cursor) = r at h1 h2 ⊢
      simp only at h1 h2
      generalize b.insert fl d (Span.new s.b.cursor b.cursor) = r' at h1 h2 ⊢
      obtain ⟨s', o⟩ := r
      obtain ⟨b', o'⟩ := r'
      simp only at h1 h2
      subst h1 h2
      cases o' with
      | error e => exact .inr ⟨rfl, rfl⟩
      | ok i =>
        simp only [Except.mapError]
        by_cases he : fl.ik.lenIsEmpty len = true
        · simp only [he, if_true]; exact .inr ⟨rfl, rfl⟩
        · simp only [he]
          rcases pushIndexF_cases (fl := fl) (ft := ft) s'.b.tree s'.tries.index
            ⟨s'.b.cursor, i⟩ with ⟨_, _, e⟩ | ⟨_, e⟩
          · simp only [e]; exact .inl rfl
          · simp only [e]; exact .inr ⟨rfl, rfl⟩

theorem FBuilder.tokenWith_conserves (s : FBuilder α) (d : α) (sp : Span) :
    Conserves (s.tokenWith fl ft d sp) (s.b.tokenWith fl d sp) := by
  unfold FBuilder.tokenWith Builder.tokenWith
  rcases s.insert_conserves (fl := fl) (ft := ft) d sp with h | ⟨h1, h2⟩
  · generalize s.insert fl ft d sp = r at h ⊢
    obtain ⟨s', o⟩ := r
    simp only at h
    subst h
    exact .inl rfl
  · generalize s.insert fl ft d sp = r at h1 h2 ⊢
    generalize s.b.insert fl d sp = r' at h1 h2 ⊢
    obtain ⟨s', o⟩ := r
    obtain ⟨b', o'⟩ := r'
    simp only at h1 h2
    subst h1 h2
    cases o' with
    | error e => exact .inr ⟨rfl, rfl⟩
    | ok i =>
      simp only [Except.mapError]
      rcases pushIndexF_cases (fl := fl) (ft := ft) s'.b.tree s'.tries.index
        ⟨sp.start, i⟩ with ⟨_, _, e⟩ | ⟨_, e⟩
      · simp only [e]; exact .inl rfl
      · simp only [e]; exact .inr ⟨rfl, rfl⟩

theorem relinkOnly_push (t : Tree α) (id newId : Nat) (parent prev : Option Nat) (new : Links α) :
    (t.relinkOnly id newId parent prev).push new = t.relink id newId parent prev new := rfl

theorem FBuilder.closeAt_conserves (cells : Cells) (s : FBuilder α) (c : Nat) (d : α)
    (ex : Option Span) :
    let r := s.closeAtCore fl ft cells c d ex
    let r' := s.b.closeAtCore fl cells c d ex
    r.2.2 = .error .flavor ∨ (r.1 = r'.1 ∧ r.2.1.b = r'.2.1 ∧ r.2.2 = r'.2.2.mapError .base) := by
  unfold FBuilder.closeAtCore Builder.closeAtCore
  simp only
  cases hc : cells[c]? with
  | none => exact .inr ⟨rfl, rfl, rfl⟩
  | some cell =>
    simp only
    by_cases hp : cell.parent ≠ s.b.parent
    · rw [if_pos hp, if_pos hp]; exact .inr ⟨rfl, rfl, rfl⟩
    · rw [if_neg hp, if_neg hp]
      cases hn : ptrNew fl.width s.b.tree.len with
      | none => exact .inr ⟨rfl, rfl, rfl⟩
      | some newId =>
        simp only
        cases hl : s.b.tree.nodes[cell.node]? with
        | none =>
          simp only
          rcases s.insert_conserves (fl := fl) (ft := ft) d (ex.getD (Span.point s.b.cursor)) with
            h | ⟨h1, h2⟩
          · generalize s.insert fl ft d (ex.getD (Span.point s.b.cursor)) = r at h ⊢
            obtain ⟨s', o⟩ := r
            simp only at h
            subst h
            exact .inl rfl
          · generalize s.insert fl ft d (ex.getD (Span.point s.b.cursor)) = r at h1 h2 ⊢
            generalize s.b.insert fl d (ex.getD (Span.point s.b.cursor)) = r' at h1 h2 ⊢
            obtain ⟨s', o⟩ := r
            obtain ⟨b', o'⟩ := r'
            simp only at h1 h2
            subst h1 h2
            cases o' with
            | error e => exact .inr ⟨rfl, rfl, rfl⟩
            | ok i =>
              simp only [Except.mapError]
              by_cases hi : i ≠ cell.node
              · rw [if_pos hi, if_pos hi]; exact .inr ⟨rfl, rfl, rfl⟩
              · rw [if_neg hi, if_neg hi]; exact .inr ⟨rfl, rfl, rfl⟩
        | some links =>
          simp only
          generalize reparent newId cell.node links s.b.tree.nodes = r
          obtain ⟨nodes, o⟩ := r
          cases o with
          | error e => exact .inr ⟨rfl, rfl, rfl⟩
          | ok p =>
            obtain ⟨last, span⟩ := p
            simp only [Tree.pushF]
            split
            · next h =>
              split at h
              · exact .inl rfl
              · simp at h
            · next h =>
              split at h
              · simp at h
              · obtain rfl := Option.some.inj h
                exact .inr ⟨rfl, rfl, rfl⟩

theorem Conserves.lift {s : FSys α} {β : Type} {g : β → Out} {r : FRes α β} {r' : Res α β}
    (h : Conserves r r') (hne : (s.lift g r).2 ≠ .error .flavor) :
    (s.lift g r).1.plain = (s.plain.lift g r').1 ∧
      (s.lift g r).2 = (s.plain.lift g r').2.mapError .base := by
  rcases h with h | ⟨h1, h2⟩
  · exact absurd (by simp [FSys.lift, h, Except.map]) hne
  · simp only [FSys.lift, Sys.lift, FSys.plain, h1, h2, map_lifted]
    exact ⟨trivial, trivial⟩

/-- One call. -/
theorem FSys.step_conserves (s : FSys α) (op : Op α) (hne : (s.step fl ft op).2 ≠ .error .flavor) :
    (s.step fl ft op).1.plain = (s.plain.step fl op).1 ∧
      (s.step fl ft op).2 = (s.plain.step fl op).2.mapError .base := by
  cases op with
  | «open» d => exact Conserves.lift (s.f.openWith_conserves d _) hne
  | openWith d sp => exact Conserves.lift (s.f.openWith_conserves d sp) hne
  | close =>
    exact Conserves.lift (r := s.f.close) (r' := s.f.b.close) (.inr ⟨rfl, rfl⟩) hne
  | token d len => exact Conserves.lift (s.f.token_conserves d len) hne
  | tokenEmpty d => exact Conserves.lift (s.f.token_conserves d 0) hne
  | tokenWith d sp => exact Conserves.lift (s.f.tokenWith_conserves d sp) hne
  | checkpoint =>
    simp only [FSys.step, Sys.step, FBuilder.mkCheckpoint, FSys.plain]
    generalize s.f.b.mkCheckpoint fl s.cells = r
    obtain ⟨cells, b, o⟩ := r
    cases o <;> exact ⟨rfl, rfl⟩
  | closeAt k d =>
    simp only [FSys.step, Sys.step, FSys.plain] at hne ⊢
    cases hk : s.handles[k]? with
    | none => simp [Except.mapError]
    | some c =>
      simp only [hk] at hne ⊢
      rcases s.f.closeAt_conserves (fl := fl) (ft := ft) s.cells c d none with h | ⟨h1, h2, h3⟩
      · exact absurd (map_flavor.2 h) hne
      · simp only [h1, h2, h3, map_lifted, Builder.closeAt]; exact ⟨trivial, trivial⟩
  | closeAtWith k d sp =>
    simp only [FSys.step, Sys.step, FSys.plain] at hne ⊢
    cases hk : s.handles[k]? with
    | none => simp [Except.mapError]
    | some c =>
      simp only [hk] at hne ⊢
      rcases s.f.closeAt_conserves (fl := fl) (ft := ft) s.cells c d (some sp) with h | ⟨h1, h2, h3⟩
      · exact absurd (map_flavor.2 h) hne
      · simp only [h1, h2, h3, map_lifted, Builder.closeAtWith]; exact ⟨trivial, trivial⟩
  | setCursor i => exact ⟨rfl, rfl⟩

theorem FSys.run_conserves (s : FSys α) (ops : List (Op α))
    (hne : ∀ o ∈ (s.run fl ft ops).2, o ≠ .error .flavor) :
    (s.run fl ft ops).1.plain = (s.plain.run fl ops).1 ∧
      (s.run fl ft ops).2 = (s.plain.run fl ops).2.map (·.mapError .base) := by
  induction ops generalizing s with
  | nil => exact ⟨rfl, rfl⟩
  | cons op ops ih =>
    simp only [FSys.run, Sys.run, List.mem_cons] at hne ⊢
    obtain ⟨h1, h2⟩ := s.step_conserves (fl := fl) (ft := ft) op (hne _ (.inl rfl))
    obtain ⟨h3, h4⟩ := ih (s.step fl ft op).1 (fun o ho => hne o (.inr ho))
    rw [h1] at h3 h4
    exact ⟨h3, by rw [h4, h2]; rfl⟩

theorem FSys.run_append (s : FSys α) (ops ops' : List (Op α)) :
    s.run fl ft (ops ++ ops') = (((s.run fl ft ops).1.run fl ft ops').1,
      (s.run fl ft ops).2 ++ ((s.run fl ft ops).1.run fl ft ops').2) := by
  induction ops generalizing s with
  | nil => rfl
  | cons op ops ih => simp only [List.cons_append, FSys.run, ih]

/-! ## What a failing call leaves behind -/

/-- The storage said no: to a node, or to an index entry. -/
inductive Why (fl : Flavor) (ft : Faults) (s : FSys α) (op : Op α) : Prop where
  | node : ft.node s.f.tries.node s.f.b.tree.nodes.length = true →
      ((s.step fl ft op).1.plain = { s.plain with b := { s.f.b with sibling := none } } ∨
        (∃ c, (s.step fl ft op).1.plain = { s.plain with b := { s.f.b with
          sibling := none, cursor := c,
          tree := { s.f.b.tree with span := ⟨s.f.b.tree.span.start, c⟩ } } }) ∨ op.isCloseAt = true) → Why fl ft s op
  | index : ft.node s.f.tries.node s.f.b.tree.nodes.length = false → fl.keepIdx = true →
      ft.index s.f.tries.index s.f.b.tree.indexes.length = true → Why fl ft s op

theorem insert_keeps_indexes (b : Builder α) (d : α) (sp : Span) :
    (b.insert fl d sp).1.tree.indexes = b.tree.indexes := by
  unfold Builder.insert
  split
  · rfl
  · simp only [Tree.modifyOpt]
    split <;> split <;> rfl

theorem insert_parent (b : Builder α) (d : α) (sp : Span) :
    (b.insert fl d sp).1.parent = b.parent ∧ (b.insert fl d sp).1.cursor = b.cursor ∧
    (b.insert fl d sp).1.tree.span = b.tree.span ∧
    (b.insert fl d sp).1.checkpoint = b.checkpoint := by
  unfold Builder.insert
  split
  · exact ⟨rfl, rfl, rfl, rfl⟩
  · refine ⟨rfl, rfl, ?_, rfl⟩
    simp only [Tree.modifyOpt]
    split <;> split <;> rfl

/-- `open_with` or `open` fails because the storage fails. -/
theorem FSys.openWith_flavor {s : FSys α} {op : Op α} {d : α} {sp : Span}
    (hop : s.step fl ft op = s.lift .id (s.f.openWith fl ft d sp))
    (hne : ∀ d len, op ≠ .token d len) (h : (s.step fl ft op).2 = .error .flavor) :
    StorageFailed fl s.plain op (s.step fl ft op).1.plain ∧ Why fl ft s op := by
  rw [hop] at h
  simp only [FSys.lift, map_flavor] at h
  rcases s.f.insert_cases (fl := fl) (ft := ft) d sp with
    (⟨_, e, e'⟩ | ⟨new, _, hf, e, _⟩) | ⟨new, _, _, e, e'⟩
  · simp [FBuilder.openWith, e] at h
  · have hp : (s.step fl ft op).1.plain = { s.plain with b := { s.f.b with sibling := none } } := by
      rw [hop]; simp [FSys.lift, FBuilder.openWith, e, FSys.plain]
    refine ⟨?_, .node hf (.inl hp)⟩
    rw [hp]
    exact .node op (fun d len e => absurd e (hne d len))
  · simp [FBuilder.openWith, e] at h

theorem lenIsEmpty_at_zero (ik : IndexKind) : ik.lenIsEmpty 0 = true := by cases ik <;> rfl

theorem FSys.token_flavor {s : FSys α} {d : α} {len : Nat}
    (h : (s.step fl ft (.token d len)).2 = .error .flavor) :
    StorageFailed fl s.plain (.token d len) (s.step fl ft (.token d len)).1.plain ∧
      Why fl ft s (.token d len) := by
  simp only [FSys.step, FSys.lift, map_flavor] at h
  by_cases hem : fl.ik.lenIsEmpty len = true
  · have ht : s.f.token fl ft d len = (match s.f.insert fl ft d (Span.new s.f.b.cursor s.f.b.cursor) with
      | (s, .error e) => (s, .error e)
      | (s, .ok id) => ({ s with b := { s.b with sibling := some id } }, .ok id)) := by
      simp [FBuilder.token, hem]
      rfl
    rcases s.f.insert_cases (fl := fl) (ft := ft) d (Span.new s.f.b.cursor s.f.b.cursor) with
      (⟨_, e, e'⟩ | ⟨new, _, hf, e, _⟩) | ⟨new, _, _, e, e'⟩
    · rw [ht, e] at h; simp at h
    · have hp : (s.step fl ft (.token d len)).1.plain =
          { s.plain with b := { s.f.b with sibling := none } } := by
        simp [FSys.step, FSys.lift, ht, e, FSys.plain]
      refine ⟨?_, .node hf (.inl hp)⟩
      rw [hp]
      refine .node _ ?_
      intro d' len' e'
      simp only [Op.token.injEq] at e'
      rw [← e'.2]; exact hem
    · rw [ht, e] at h; simp at h
  · have hem' : fl.ik.lenIsEmpty len = false := by simpa using hem
    cases hadd : fl.ik.checkedAddLen s.f.b.cursor len with
    | none => simp [FBuilder.token, hem', hadd] at h
    | some c =>
      let b1 : Builder α := { s.f.b with
          cursor := c, tree := { s.f.b.tree with span := { s.f.b.tree.span with stop := c } } }
      have ht : s.f.token fl ft d len = (match FBuilder.insert fl ft ⟨b1, s.f.tries⟩ d
          (Span.new s.f.b.cursor c) with
        | (s, .error e) => (s, .error e)
        | (s, .ok id) =>
          (match Tree.pushIndexF fl ft s.tries.index s.b.tree ⟨s.b.cursor, id⟩ with
          | none => (⟨{ s.b with sibling := some id },
              { s.tries with index := s.tries.index + 1 }⟩, .error .flavor)
          | some t => (⟨{ s.b with sibling := some id, tree := t },
              { s.tries with index := s.tries.index + 1 }⟩, .ok id))) := by
        simp [FBuilder.token, hem', hadd, b1]
        rfl
      rcases FBuilder.insert_cases (fl := fl) (ft := ft) ⟨b1, s.f.tries⟩ d
        (Span.new s.f.b.cursor c) with
        (⟨_, e, e'⟩ | ⟨new, _, hf, e, _⟩) | ⟨new, _, hf, e, e'⟩
      · rw [ht, e] at h; simp at h
      · have hp : (s.step fl ft (.token d len)).1.plain = { s.plain with b := { s.f.b with
            sibling := none, cursor := c,
            tree := { s.f.b.tree with span := ⟨s.f.b.tree.span.start, c⟩ } } } := by
          simp [FSys.step, FSys.lift, ht, e, FSys.plain, b1]
        refine ⟨?_, .node hf (.inr (.inl ⟨c, hp⟩))⟩
        rw [hp]
        exact .token d len c hem' hadd
      · rw [ht, e] at h
        simp only at h
        have hidx : (b1.insert fl d (Span.new s.f.b.cursor c)).1.tree.indexes = s.f.b.tree.indexes :=
          insert_keeps_indexes _ _ _
        rcases pushIndexF_cases (fl := fl) (ft := ft) (b1.insert fl d (Span.new s.f.b.cursor c)).1.tree
          s.f.tries.index ⟨(b1.insert fl d (Span.new s.f.b.cursor c)).1.cursor, new⟩ with
          ⟨hk, hx, ex⟩ | ⟨_, ex⟩
        · have hstep : s.plain.step fl (.token d len) = (⟨{ (b1.insert fl d
              (Span.new s.f.b.cursor c)).1 with
                sibling := some new, tree := (b1.insert fl d (Span.new s.f.b.cursor c)).1.tree.pushIndex fl
                  ⟨(b1.insert fl d (Span.new s.f.b.cursor c)).1.cursor, new⟩ }, s.cells, s.handles⟩,
                .ok (.id new)) := by
            simp only [Sys.step, Builder.token, FSys.plain, hem', hadd, Bool.false_eq_true, if_false]
            have : b1.insert fl d (Span.new s.f.b.cursor c) =
              ((b1.insert fl d (Span.new s.f.b.cursor c)).1, .ok new) := by rw [← e']
            simp only [b1] at this ⊢
            rw [this]
            rfl
          have hfst : (s.step fl ft (.token d len)).1.plain = ⟨{ (b1.insert fl d
              (Span.new s.f.b.cursor c)).1 with sibling := some new }, s.cells, s.handles⟩ := by
            simp [FSys.step, FSys.lift, ht, e, FSys.plain, ex]
          refine ⟨?_, .index hf hk (hidx ▸ hx)⟩
          have := StorageFailed.tokenIndex (fl := fl) (s := s.plain) d len new (by rw [hstep])
          rw [hstep] at this
          rw [hfst]
          simp only [Tree.pushIndex, hk, if_true] at this
          have e2 : s.plain.b.tree.indexes = (b1.insert fl d
            (Span.new s.f.b.cursor c)).1.tree.indexes := hidx.symm
          rw [e2] at this
          exact this
        · simp only [b1] at ex
          simp only [b1, ex] at h; simp at h

theorem FSys.tokenEmpty_flavor {s : FSys α} {d : α}
    (h : (s.step fl ft (.tokenEmpty d)).2 = .error .flavor) :
    StorageFailed fl s.plain (.tokenEmpty d) (s.step fl ft (.tokenEmpty d)).1.plain ∧
      Why fl ft s (.tokenEmpty d) := by
  simp only [FSys.step, FSys.lift, map_flavor] at h
  have ht : s.f.tokenEmpty fl ft d = (match s.f.insert fl ft d (Span.new s.f.b.cursor s.f.b.cursor) with
    | (s, .error e) => (s, .error e)
    | (s, .ok id) => ({ s with b := { s.b with sibling := some id } }, .ok id)) := by
    simp [FBuilder.tokenEmpty, FBuilder.token, lenIsEmpty_at_zero]
    rfl
  rcases s.f.insert_cases (fl := fl) (ft := ft) d (Span.new s.f.b.cursor s.f.b.cursor) with
    (⟨_, e, e'⟩ | ⟨new, _, hf, e, _⟩) | ⟨new, _, _, e, e'⟩
  · rw [ht, e] at h; simp at h
  · have hp : (s.step fl ft (.tokenEmpty d)).1.plain =
        { s.plain with b := { s.f.b with sibling := none } } := by
      simp [FSys.step, FSys.lift, ht, e, FSys.plain]
    refine ⟨?_, .node hf (.inl hp)⟩
    rw [hp]
    exact .node _ (by simp)
  · rw [ht, e] at h; simp at h

theorem FSys.tokenWith_flavor {s : FSys α} {d : α} {sp : Span}
    (h : (s.step fl ft (.tokenWith d sp)).2 = .error .flavor) :
    StorageFailed fl s.plain (.tokenWith d sp) (s.step fl ft (.tokenWith d sp)).1.plain ∧
      Why fl ft s (.tokenWith d sp) := by
  simp only [FSys.step, FSys.lift, map_flavor] at h
  rcases s.f.insert_cases (fl := fl) (ft := ft) d sp with
    (⟨_, e, e'⟩ | ⟨new, _, hf, e, _⟩) | ⟨new, _, hf, e, e'⟩
  · simp [FBuilder.tokenWith, e] at h
  · have hp : (s.step fl ft (.tokenWith d sp)).1.plain =
        { s.plain with b := { s.f.b with sibling := none } } := by
      simp [FSys.step, FSys.lift, FBuilder.tokenWith, e, FSys.plain]
    refine ⟨?_, .node hf (.inl hp)⟩
    rw [hp]
    exact .node _ (by simp)
  · rcases pushIndexF_cases (fl := fl) (ft := ft) (s.f.b.insert fl d sp).1.tree
      s.f.tries.index ⟨sp.start, new⟩ with ⟨hk, hx, ex⟩ | ⟨_, ex⟩
    · rw [insert_keeps_indexes] at hx
      refine ⟨?_, .index hf hk hx⟩
      have hins : s.f.b.insert fl d sp = ((s.f.b.insert fl d sp).1, .ok new) := by rw [← e']
      have hopen : s.plain.step fl (.openWith d sp) = ({ s.plain with b := {
          (s.f.b.insert fl d sp).1 with parent := some new } }, .ok (.id new)) := by
        simp only [Sys.step, Sys.lift, Builder.openWith, FSys.plain]
        rw [hins]; rfl
      have := StorageFailed.tokenWithIndex (fl := fl) (s := s.plain) d sp new (by rw [hopen])
      rw [hopen] at this
      have hp : (s.step fl ft (.tokenWith d sp)).1.plain = ⟨{ (s.f.b.insert fl d sp).1 with
          sibling := some new }, s.cells, s.handles⟩ := by
        simp [FSys.step, FSys.lift, FBuilder.tokenWith, e, FSys.plain, ex]
      rw [hp]
      have hpar : s.plain.b.parent = (s.f.b.insert fl d sp).1.parent :=
        (insert_parent _ _ _).1.symm
      simp only [FSys.plain] at this hpar
      rw [hpar] at this
      exact this
    · simp [FBuilder.tokenWith, e, ex] at h

theorem relinkOnly_indexes (t : Tree α) (id newId : Nat) (parent prev : Option Nat) :
    (t.relinkOnly id newId parent prev).indexes = t.indexes := by
  unfold Tree.relinkOnly Tree.modifyOpt
  cases parent <;> cases prev <;> rfl

theorem relinkOnly_nodes_length (t : Tree α) (id newId : Nat) (parent prev : Option Nat) :
    (t.relinkOnly id newId parent prev).nodes.length = t.nodes.length := by
  unfold Tree.relinkOnly Tree.modifyOpt
  cases parent <;> cases prev <;> simp [Tree.modifyNode]

theorem restructure_length (pid fuel : Nat) (nodes : List (Links α)) (cur : Nat) :
    (restructure pid fuel nodes cur).1.length = nodes.length := by
  induction fuel generalizing nodes cur with
  | zero => rfl
  | succ fuel ih =>
    unfold restructure
    split
    · rfl
    · simp only
      split
      · rw [ih]; simp
      · simp

theorem reparent_length (newId id : Nat) (links : Links α) (nodes : List (Links α)) :
    (reparent newId id links nodes).1.length = nodes.length := by
  unfold reparent
  simp only
  split
  · next h =>
    have := restructure_length newId ((nodes.set id { links with
      parent := some newId, prev := none }).length + 1) (nodes.set id { links with
      parent := some newId, prev := none }) ‹Nat›
    split
    · next e => rw [e] at this; simpa using this
    · next e => rw [e] at this; simpa using this
  · simp

theorem FSys.closeAt_flavor {s : FSys α} {op : Op α} {k : Nat} {d : α} {ex : Option Span}
    (hu : UsesAt op k d ex) (h : (s.step fl ft op).2 = .error .flavor) :
    StorageFailed fl s.plain op (s.step fl ft op).1.plain ∧ Why fl ft s op := by
  have hc : op.isCloseAt = true := by cases hu <;> rfl
  have hF : s.step fl ft op = (match s.handles[k]? with
    | none => (s, .ok .unit)
    | some c => (⟨(s.f.closeAtCore fl ft s.cells c d ex).2.1,
        (s.f.closeAtCore fl ft s.cells c d ex).1, s.handles⟩,
        (s.f.closeAtCore fl ft s.cells c d ex).2.2.map Out.id)) := by
    cases hu <;> rfl
  have hP : s.plain.step fl op = (match s.handles[k]? with
    | none => (s.plain, .ok .unit)
    | some c => (⟨(s.f.b.closeAtCore fl s.cells c d ex).2.1,
        (s.f.b.closeAtCore fl s.cells c d ex).1, s.handles⟩,
        (s.f.b.closeAtCore fl s.cells c d ex).2.2.map Out.id)) := by
    cases hu <;> rfl
  have hnt : ∀ d len, op = .token d len → fl.ik.lenIsEmpty len = true := by
    intro d' len' e; rw [e] at hc; simp [Op.isCloseAt] at hc
  cases hk : s.handles[k]? with
  | none => rw [hF, hk] at h; simp at h
  | some c =>
    simp only [hk] at hF hP
    rw [hF] at h
    simp only [map_flavor] at h
    cases hcell : s.cells[c]? with
    | none => simp [FBuilder.closeAtCore, hcell] at h
    | some cell =>
      by_cases hp : cell.parent ≠ s.f.b.parent
      · simp [FBuilder.closeAtCore, hcell, hp] at h
      · cases hn : ptrNew fl.width s.f.b.tree.len with
        | none => simp [FBuilder.closeAtCore, hcell, hp, hn] at h
        | some newId =>
          cases hl : s.f.b.tree.nodes[cell.node]? with
          | none =>
            rcases s.f.insert_cases (fl := fl) (ft := ft) d (ex.getD (Span.point s.f.b.cursor)) with
              (⟨e0, e, e'⟩ | ⟨new, _, hf, e, _⟩) | ⟨new, _, hf, e, e'⟩
            · rw [e0] at hn; simp at hn
            · have hpl : (s.step fl ft op).1.plain =
                  { s.plain with b := { s.f.b with sibling := none } } := by
                rw [hF]
                simp [FBuilder.closeAtCore, hcell, hp, hn, hl, e, FSys.plain]
              refine ⟨?_, .node hf (.inl hpl)⟩
              rw [hpl]
              exact .node op hnt
            · simp only [FBuilder.closeAtCore, hcell, hp, hn, hl, e, if_false] at h
              by_cases hne : new ≠ cell.node
              · simp [hne] at h
              · simp [hne] at h
          | some links =>
            generalize hr : reparent newId cell.node links s.f.b.tree.nodes = r at *
            obtain ⟨nodes, o⟩ := r
            cases o with
            | error er => simp [FBuilder.closeAtCore, hcell, hp, hn, hl, hr] at h
            | ok q =>
              obtain ⟨last, span⟩ := q
              have hlen : nodes.length = s.f.b.tree.nodes.length := by
                have := reparent_length newId cell.node links s.f.b.tree.nodes
                rw [hr] at this; exact this
              cases hf : ft.node s.f.tries.node s.f.b.tree.nodes.length with
              | false =>
                simp [FBuilder.closeAtCore, hcell, hp, hn, hl, hr, Tree.pushF,
                  relinkOnly_nodes_length, hlen, hf] at h
              | true =>
                refine ⟨?_, .node hf (.inr (.inr hc))⟩
                have hplain : s.f.b.closeAtCore fl s.cells c d ex =
                  (s.cells.set c ⟨newId, links.parent⟩, { s.f.b with
                    tree := Tree.relink { s.f.b.tree with nodes := nodes } cell.node newId
                      links.parent links.prev
                      { data := d, span := ex.getD span, prev := links.prev,
                        parent := links.parent, next := none, first := some cell.node,
                        last := some last }, sibling := some newId }, .ok newId) := by
                  simp [Builder.closeAtCore, hcell, hp, hn, hl, hr]
                have hfirst : (s.step fl ft op).1.plain = { s.plain with b := { s.f.b with
                    tree := Tree.relinkOnly { s.f.b.tree with nodes := nodes } cell.node newId
                      links.parent links.prev } } := by
                  rw [hF]
                  simp [FBuilder.closeAtCore, hcell, hp, hn, hl, hr, Tree.pushF,
                    relinkOnly_nodes_length, hlen, hf, FSys.plain]
                have := StorageFailed.wrapper (fl := fl) (s := s.plain) op newId hc (by
                  rw [hP, hplain]; rfl)
                rw [hP, hplain, ← relinkOnly_push] at this
                rw [hfirst]
                have ht : ∀ (t : Tree α) (l : Links α),
                    { t.push l with nodes := (t.push l).nodes.dropLast } = t := by
                  intro t l; simp [Tree.push]
                simp only [ht] at this
                exact this

/-- What a call that fails because the storage fails leaves behind. -/
theorem FSys.step_flavor {s : FSys α} {op : Op α} (h : (s.step fl ft op).2 = .error .flavor) :
    StorageFailed fl s.plain op (s.step fl ft op).1.plain ∧ Why fl ft s op := by
  cases op with
  | «open» d => exact FSys.openWith_flavor rfl (by simp) h
  | openWith d sp => exact FSys.openWith_flavor rfl (by simp) h
  | close =>
    simp only [FSys.step, FSys.lift, map_flavor, FBuilder.close] at h
    exact absurd h (lifted_ne_flavor _)
  | token d len => exact FSys.token_flavor h
  | tokenEmpty d => exact FSys.tokenEmpty_flavor h
  | tokenWith d sp => exact FSys.tokenWith_flavor h
  | checkpoint =>
    exfalso
    simp only [FSys.step, FBuilder.mkCheckpoint] at h
    generalize s.f.b.mkCheckpoint fl s.cells = r at h
    obtain ⟨cells, b, o⟩ := r
    cases o <;> simp [Except.mapError] at h
  | closeAt k d => exact FSys.closeAt_flavor (.closeAt k d) h
  | closeAtWith k d sp => exact FSys.closeAt_flavor (.closeAtWith k d sp) h
  | setCursor i => simp [FSys.step] at h

end Syntree
