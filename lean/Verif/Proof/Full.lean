import Verif.Proof.Fault

/-! When the storage fails, and storage with a fixed capacity. -/

namespace Syntree

variable {α : Type} {fl : Flavor} {ft : Faults}

theorem insert_len {b : Builder α} {d : α} {sp : Span} {new : Nat}
    (h : (b.insert fl d sp).2 = .ok new) :
    (b.insert fl d sp).1.tree.nodes.length = b.tree.nodes.length + 1 := by
  unfold Builder.insert at h ⊢
  split at h
  · simp at h
  · simp only [Tree.modifyOpt]
    split <;> split <;> simp [Tree.modifyNode, Tree.push, Tree.addRoot]

theorem modifyOpt_length (t : Tree α) (o : Option Nat) (f : Links α → Links α) :
    (t.modifyOpt o f).nodes.length = t.nodes.length := by
  cases o <;> simp [Tree.modifyOpt, Tree.modifyNode]

theorem map_ok_id {r : Except Err Nat} {i : Nat} :
    r.map Out.id = .ok (.id i) ↔ r = .ok i := by
  cases r <;> simp [Except.map]

theorem when_openWith {s : FSys α} {op : Op α} {d : α} {sp : Span}
    (hF : s.step fl ft op = s.lift .id (s.f.openWith fl ft d sp))
    (hP : s.plain.step fl op = s.plain.lift .id (s.f.b.openWith fl d sp))
    (hi : op.indexed fl = false) :
    (s.step fl ft op).2 = .error .flavor ↔
      (s.plain.step fl op).1.b.tree.len = s.f.b.tree.len + 1 ∧ Refuses fl ft s op := by
  rw [hF, hP]
  simp only [FSys.lift, Sys.lift, map_flavor, Refuses, hi, Bool.false_eq_true, false_and, or_false]
  rcases s.f.insert_cases (fl := fl) (ft := ft) d sp with
    (⟨_, e, e'⟩ | ⟨new, _, hf, e, e'⟩) | ⟨new, _, hf, e, e'⟩
  · simp [FBuilder.openWith, Builder.openWith, e, e', Tree.len, FSys.plain]
  · have hl := insert_len e'
    have : (s.f.b.openWith fl d sp).1.tree.nodes.length = s.f.b.tree.nodes.length + 1 := by
      unfold Builder.openWith
      generalize s.f.b.insert fl d sp = r at e' hl
      obtain ⟨b, o⟩ := r
      simp only at e' hl; subst e'; exact hl
    simp [FBuilder.openWith, e, this, Tree.len, hf]
  · simp [FBuilder.openWith, e, hf]

theorem when_token {s : FSys α} (d : α) (len : Nat) :
    (s.step fl ft (.token d len)).2 = .error .flavor ↔
      (s.plain.step fl (.token d len)).1.b.tree.len = s.f.b.tree.len + 1 ∧ Refuses fl ft s (.token d len) := by
  by_cases hem : fl.ik.lenIsEmpty len = true
  · simp only [FSys.step, Sys.step, FSys.lift, Sys.lift, map_flavor, Refuses, Op.indexed, hem,
      Bool.not_true, Bool.false_eq_true, false_and, or_false, FSys.plain]
    rcases s.f.insert_cases (fl := fl) (ft := ft) d (Span.new s.f.b.cursor s.f.b.cursor) with
      (⟨_, e, e'⟩ | ⟨new, _, hf, e, e'⟩) | ⟨new, _, hf, e, e'⟩
    · simp [FBuilder.token, Builder.token, hem, e, e', Tree.len, FSys.plain]
    · have hl := insert_len e'
      have : (s.f.b.token fl d len).1.tree.nodes.length = s.f.b.tree.nodes.length + 1 := by
        simp only [Builder.token, hem, if_true]
        generalize s.f.b.insert fl d (Span.new s.f.b.cursor s.f.b.cursor) = r at e' hl
        obtain ⟨b, o⟩ := r
        simp only at e' hl; subst e'; exact hl
      simp [FBuilder.token, hem, e, this, Tree.len, FSys.plain, hf]
    · simp [FBuilder.token, hem, e, hf]
  · have hem' : fl.ik.lenIsEmpty len = false := by simpa using hem
    simp only [FSys.step, Sys.step, FSys.lift, Sys.lift, map_flavor, Refuses, Op.indexed, hem',
      Bool.not_false, true_and, FSys.plain]
    cases hadd : fl.ik.checkedAddLen s.f.b.cursor len with
    | none => simp [FBuilder.token, Builder.token, hem', hadd, Tree.len, FSys.plain]
    | some c =>
      let b1 : Builder α := { s.f.b with
          cursor := c, tree := { s.f.b.tree with span := { s.f.b.tree.span with stop := c } } }
      have ht : s.f.token fl ft d len = (match FBuilder.insert fl ft ⟨b1, s.f.tries⟩ d
          (Span.new s.f.b.cursor c) with
        | (s, .error e) => (s, .error e)
        | (s, .ok id) =>
          (match Tree.pushIndexF fl ft s.tries.index s.b.tree ⟨s.b.cursor, id⟩ with
          | none => (⟨{ s.b with sibling := some id },
              { s.tries with index := s.tries.index + 1 }⟩, .error .flavor)
          | some t => (⟨{ s.b with sibling := some id, tree := t },
              { s.tries with index := s.tries.index + 1 }⟩, .ok id))) := by
        simp [FBuilder.token, hem', hadd, b1]
        rfl
      have hp : s.f.b.token fl d len = (match b1.insert fl d (Span.new s.f.b.cursor c) with
        | (b, .error e) => (b, .error e)
        | (b, .ok id) => ({ b with sibling := some id, tree := b.tree.pushIndex fl ⟨b.cursor, id⟩ }, .ok id)) := by
        simp [Builder.token, hem', hadd, b1]
        rfl
      rw [ht, hp]
      have hidx : (b1.insert fl d (Span.new s.f.b.cursor c)).1.tree.indexes = s.f.b.tree.indexes :=
        insert_keeps_indexes _ _ _
      rcases FBuilder.insert_cases (fl := fl) (ft := ft) ⟨b1, s.f.tries⟩ d
        (Span.new s.f.b.cursor c) with
        (⟨_, e, e'⟩ | ⟨new, _, hf, e, e'⟩) | ⟨new, _, hf, e, e'⟩
      · simp only [e, e']; simp [Tree.len, b1]
      · rw [e]
        simp only at e' hf
        have hl := insert_len e'
        generalize b1.insert fl d (Span.new s.f.b.cursor c) = r at e' hl
        obtain ⟨b, o⟩ := r
        simp only at e' hl; subst e'
        have hl' : b.tree.nodes.length = s.f.b.tree.nodes.length + 1 := hl
        have hf' : ft.node s.f.tries.node s.f.b.tree.nodes.length = true := hf
        simp [Tree.len, hf', pushIndex_nodes, hl']
      · rw [e]
        simp only at e' hf hidx ⊢
        have hl := insert_len e'
        generalize b1.insert fl d (Span.new s.f.b.cursor c) = r at e' hidx hl ⊢
        obtain ⟨b, o⟩ := r
        simp only at e' hidx hl; subst e'
        have hl' : b.tree.nodes.length = s.f.b.tree.nodes.length + 1 := hl
        have hf' : ft.node s.f.tries.node s.f.b.tree.nodes.length = false := hf
        rcases pushIndexF_cases (fl := fl) (ft := ft) b.tree
          s.f.tries.index ⟨b.cursor, new⟩ with
          ⟨hk, hx, ex⟩ | ⟨hx, ex⟩
        · rw [hidx] at hx
          simp [ex, hk, hx, Tree.len, pushIndex_nodes, hl']
        · rw [hidx] at hx
          simp only [ex, hf']
          rcases hx with hx | hx <;> simp [hx]

theorem when_tokenWith {s : FSys α} (d : α) (sp : Span) :
    (s.step fl ft (.tokenWith d sp)).2 = .error .flavor ↔
      (s.plain.step fl (.tokenWith d sp)).1.b.tree.len = s.f.b.tree.len + 1 ∧ Refuses fl ft s (.tokenWith d sp) := by
  simp only [FSys.step, Sys.step, FSys.lift, Sys.lift, map_flavor, Refuses, Op.indexed,
      true_and, FSys.plain]
  have hidx : (s.f.b.insert fl d sp).1.tree.indexes = s.f.b.tree.indexes :=
    insert_keeps_indexes _ _ _
  rcases s.f.insert_cases (fl := fl) (ft := ft) d sp with
    (⟨_, e, e'⟩ | ⟨new, _, hf, e, e'⟩) | ⟨new, _, hf, e, e'⟩
  · simp [FBuilder.tokenWith, Builder.tokenWith, e, e', Tree.len, FSys.plain]
  · unfold FBuilder.tokenWith Builder.tokenWith
    rw [e]
    have hl := insert_len e'
    generalize s.f.b.insert fl d sp = r at e' hl
    obtain ⟨b, o⟩ := r
    simp only at e' hl; subst e'
    simp [Tree.len, modifyOpt_length, pushIndex_nodes, hf, hl]
  · unfold FBuilder.tokenWith Builder.tokenWith
    rw [e]
    have hl := insert_len e'
    generalize s.f.b.insert fl d sp = r at e' hidx hl ⊢
    obtain ⟨b, o⟩ := r
    simp only at e' hidx hl; subst e'
    rcases pushIndexF_cases (fl := fl) (ft := ft) b.tree
      s.f.tries.index ⟨sp.start, new⟩ with
      ⟨hk, hx, ex⟩ | ⟨hx, ex⟩
    · rw [hidx] at hx
      simp [ex, hk, hx, Tree.len, modifyOpt_length, pushIndex_nodes, hl]
    · rw [hidx] at hx
      simp only [ex, hf]
      rcases hx with hx | hx <;> simp [hx]

theorem when_closeAt {s : FSys α} {op : Op α} {k : Nat} {d : α} {ex : Option Span}
    (hu : UsesAt op k d ex) :
    (s.step fl ft op).2 = .error .flavor ↔
      (s.plain.step fl op).1.b.tree.len = s.f.b.tree.len + 1 ∧ Refuses fl ft s op := by
  have hi : op.indexed fl = false := by cases hu <;> rfl
  have hF : s.step fl ft op = (match s.handles[k]? with
    | none => (s, .ok .unit)
    | some c => (⟨(s.f.closeAtCore fl ft s.cells c d ex).2.1,
        (s.f.closeAtCore fl ft s.cells c d ex).1, s.handles⟩,
        (s.f.closeAtCore fl ft s.cells c d ex).2.2.map Out.id)) := by
    cases hu <;> rfl
  have hP : s.plain.step fl op = (match s.handles[k]? with
    | none => (s.plain, .ok .unit)
    | some c => (⟨(s.f.b.closeAtCore fl s.cells c d ex).2.1,
        (s.f.b.closeAtCore fl s.cells c d ex).1, s.handles⟩,
        (s.f.b.closeAtCore fl s.cells c d ex).2.2.map Out.id)) := by
    cases hu <;> rfl
  simp only [Refuses, hi, Bool.false_eq_true, false_and, or_false]
  cases hk : s.handles[k]? with
  | none => rw [hF, hP, hk]; simp [Tree.len, FSys.plain]
  | some c =>
    simp only [hk] at hF hP
    rw [hF, hP] 
    simp only [map_flavor]
    cases hcell : s.cells[c]? with
    | none => simp [FBuilder.closeAtCore, Builder.closeAtCore, hcell, Tree.len, FSys.plain]
    | some cell =>
      by_cases hp : cell.parent ≠ s.f.b.parent
      · simp [FBuilder.closeAtCore, Builder.closeAtCore, hcell, hp, Tree.len, FSys.plain]
      · cases hn : ptrNew fl.width s.f.b.tree.len with
        | none =>
          simp only [FBuilder.closeAtCore, Builder.closeAtCore, hcell, hp, hn, if_false]
          simp [Tree.len]
        | some newId =>
          cases hl : s.f.b.tree.nodes[cell.node]? with
          | none =>
            simp only [FBuilder.closeAtCore, Builder.closeAtCore, hcell, hp, hn, hl, if_false]
            rcases s.f.insert_cases (fl := fl) (ft := ft) d (ex.getD (Span.point s.f.b.cursor)) with
              (⟨e0, e, e'⟩ | ⟨new, _, hf, e, e'⟩) | ⟨new, _, hf, e, e'⟩
            · rw [e0] at hn; simp at hn
            · rw [e]
              have hl := insert_len e'
              generalize s.f.b.insert fl d (ex.getD (Span.point s.f.b.cursor)) = r at e' hl
              obtain ⟨b, o⟩ := r
              simp only at e' hl; subst e'
              simp only [hf, and_true, true_iff]
              by_cases hne : new ≠ cell.node
              · simp [hne, Tree.len, hl]
              · simp [hne, Tree.len, hl]
            · rw [e]
              simp only [hf, Bool.false_eq_true, and_false, iff_false]
              by_cases hne : new ≠ cell.node
              · simp [hne]
              · simp [hne]
          | some links =>
            simp only [FBuilder.closeAtCore, Builder.closeAtCore, hcell, hp, hn, hl, if_false] at ⊢
            have hlen := reparent_length newId cell.node links s.f.b.tree.nodes
            generalize hr : reparent newId cell.node links s.f.b.tree.nodes = r at *
            obtain ⟨nodes, o⟩ := r
            simp only at hlen
            cases o with
            | error er =>
              simp [Tree.len, hlen, FSys.plain]
            | ok q =>
              obtain ⟨last, span⟩ := q
              simp only [Tree.pushF, relinkOnly_nodes_length, hlen]
              cases hf : ft.node s.f.tries.node s.f.b.tree.nodes.length with
              | false => simp
              | true =>
                simp only [Tree.len, ← relinkOnly_push, Tree.push, List.length_append,
                  relinkOnly_nodes_length, hlen]
                simp

theorem close_len (b : Builder α) : b.close.1.tree.nodes.length = b.tree.nodes.length := by
  unfold Builder.close
  split
  · rfl
  · simp only
    split
    · rfl
    · split
      · split
        · simp [Tree.modifyNode]
        · rfl
      · rfl

theorem mkCheckpoint_tree (cells : Cells) (b : Builder α) :
    (b.mkCheckpoint fl cells).2.1.tree = b.tree := by
  unfold Builder.mkCheckpoint
  split
  · rfl
  · simp only
    split
    · rfl
    · split
      · split <;> rfl
      · rfl

theorem checkpoint_step_tree (s : Sys α) : (s.step fl .checkpoint).1.b.tree = s.b.tree := by
  have := mkCheckpoint_tree (fl := fl) s.cells s.b
  simp only [Sys.step]
  generalize s.b.mkCheckpoint fl s.cells = r at this
  obtain ⟨cells, b, o⟩ := r
  cases o <;> exact this

/-- A call fails because the storage fails exactly if it would add a node and the storage refuses
what it asks for. -/
theorem FSys.fails_iff (s : FSys α) (op : Op α) :
    (s.step fl ft op).2 = .error .flavor ↔
      (s.plain.step fl op).1.b.tree.len = s.f.b.tree.len + 1 ∧ Refuses fl ft s op := by
  cases op with
  | «open» d => exact when_openWith rfl rfl rfl
  | openWith d sp => exact when_openWith rfl rfl rfl
  | close =>
    constructor
    · intro h; simp only [FSys.step, FSys.lift, map_flavor, FBuilder.close] at h
      exact absurd h (lifted_ne_flavor _)
    · rintro ⟨h, _⟩
      have := close_len s.f.b
      simp only [Sys.step, Sys.lift, FSys.plain, Tree.len] at h
      omega
  | token d len => exact when_token d len
  | tokenEmpty d =>
    have := when_token (fl := fl) (ft := ft) (s := s) d 0
    simp only [Refuses, Op.indexed, lenIsEmpty_at_zero] at this ⊢
    exact this
  | tokenWith d sp => exact when_tokenWith d sp
  | checkpoint =>
    rw [checkpoint_step_tree]
    constructor
    · intro h; exfalso
      simp only [FSys.step, FBuilder.mkCheckpoint] at h
      generalize s.f.b.mkCheckpoint fl s.cells = r at h
      obtain ⟨cells, b, o⟩ := r
      cases o <;> simp [Except.mapError] at h
    · rintro ⟨h, _⟩; simp [FSys.plain] at h
  | closeAt k d => exact when_closeAt (.closeAt k d)
  | closeAtWith k d sp => exact when_closeAt (.closeAtWith k d sp)
  | setCursor i => simp [FSys.step, Sys.step, FSys.plain, Builder.setCursor]

/-! ## The index is not longer than the table of nodes -/

theorem pushIndex_length (t : Tree α) (i : TreeIndex) :
    (t.pushIndex fl i).indexes.length ≤ t.indexes.length + 1 := by
  unfold Tree.pushIndex; split <;> simp

theorem modifyOpt_keeps_indexes (t : Tree α) (o : Option Nat) (f : Links α → Links α) :
    (t.modifyOpt o f).indexes = t.indexes := by
  cases o <;> rfl

theorem relink_indexes (t : Tree α) (id newId : Nat) (parent prev : Option Nat) (new : Links α) :
    (t.relink id newId parent prev new).indexes = t.indexes := by
  rw [← relinkOnly_push]; exact relinkOnly_indexes _ _ _ _ _

theorem close_keeps_indexes (b : Builder α) : b.close.1.tree.indexes = b.tree.indexes := by
  unfold Builder.close
  split
  · rfl
  · simp only
    split
    · rfl
    · split
      · split <;> rfl
      · rfl

theorem openWith_keeps_indexes (b : Builder α) (d : α) (sp : Span) :
    (b.openWith fl d sp).1.tree.indexes = b.tree.indexes := by
  have := insert_keeps_indexes (fl := fl) b d sp
  unfold Builder.openWith
  generalize b.insert fl d sp = r at this
  obtain ⟨b', o⟩ := r
  cases o <;> exact this

theorem closeAt_indexes (cells : Cells) (b : Builder α) (c : Nat) (d : α) (ex : Option Span) :
    (b.closeAtCore fl cells c d ex).2.1.tree.indexes = b.tree.indexes := by
  unfold Builder.closeAtCore
  cases hcell : cells[c]? with
  | none => rfl
  | some cell =>
    simp only
    by_cases hp : cell.parent ≠ b.parent
    · rw [if_pos hp]
    · rw [if_neg hp]
      cases hn : ptrNew fl.width b.tree.len with
      | none => rfl
      | some newId =>
        simp only
        cases hl : b.tree.nodes[cell.node]? with
        | none =>
          simp only
          have := insert_keeps_indexes (fl := fl) b d (ex.getD (Span.point b.cursor))
          generalize b.insert fl d (ex.getD (Span.point b.cursor)) = r at this
          obtain ⟨b', o⟩ := r
          cases o with
          | error e => exact this
          | ok i =>
            simp only
            split <;> exact this
        | some links =>
          simp only
          generalize reparent newId cell.node links b.tree.nodes = r
          obtain ⟨nodes, o⟩ := r
          cases o with
          | error e => rfl
          | ok q => simp only [relink_indexes]

/-- Only tokens add to the index, and only together with a node. -/
theorem step_indexes (s : Sys α) (op : Op α) :
    (s.step fl op).1.b.tree.indexes = s.b.tree.indexes ∨
      ((s.step fl op).1.b.tree.indexes.length ≤ s.b.tree.indexes.length + 1 ∧
        (s.step fl op).1.b.tree.nodes.length = s.b.tree.nodes.length + 1) := by
  have htok : ∀ d len, (s.b.token fl d len).1.tree.indexes = s.b.tree.indexes ∨
      ((s.b.token fl d len).1.tree.indexes.length ≤ s.b.tree.indexes.length + 1 ∧
        (s.b.token fl d len).1.tree.nodes.length = s.b.tree.nodes.length + 1) := by
    intro d len
    unfold Builder.token
    simp only
    have key : ∀ b1 : Builder α, b1.tree.indexes = s.b.tree.indexes →
        b1.tree.nodes = s.b.tree.nodes → ∀ sp,
        let r := (match b1.insert fl d sp with
          | (b, .error e) => ((b, .error e) : Res α Nat)
          | (b, .ok id) =>
            let b := { b with sibling := some id }
            if fl.ik.lenIsEmpty len then (b, .ok id)
            else ({ b with tree := b.tree.pushIndex fl ⟨b.cursor, id⟩ }, .ok id))
        r.1.tree.indexes = s.b.tree.indexes ∨
          (r.1.tree.indexes.length ≤ s.b.tree.indexes.length + 1 ∧
            r.1.tree.nodes.length = s.b.tree.nodes.length + 1) := by
      intro b1 h1 h2 sp
      have hi := insert_keeps_indexes (fl := fl) b1 d sp
      have hl := fun new => insert_len (fl := fl) (b := b1) (d := d) (sp := sp) (new := new)
      generalize b1.insert fl d sp = r at hi hl
      obtain ⟨b, o⟩ := r
      simp only at hi hl
      cases o with
      | error e => exact .inl (hi.trans h1)
      | ok i =>
        simp only
        split
        · exact .inl (hi.trans h1)
        · right
          have := pushIndex_length (fl := fl) b.tree ⟨b.cursor, i⟩
          have hl := hl i rfl
          simp only [pushIndex_nodes]
          rw [hi, h1] at this
          rw [h2] at hl
          exact ⟨this, hl⟩
    by_cases he : fl.ik.lenIsEmpty len = true
    · simp only [he, if_true]
      have := key s.b rfl rfl (Span.new s.b.cursor s.b.cursor)
      simp only [he, if_true] at this
      exact this
    · simp only [he]
      cases ha : fl.ik.checkedAddLen s.b.cursor len with
      | none => exact .inl rfl
      | some c =>
        have := key { s.b with
          cursor := c, tree := { s.b.tree with span := { s.b.tree.span with stop := c } } } rfl rfl
          (Span.new s.b.cursor c)
        simp only [he] at this
        exact this
  cases op with
  | «open» d => exact .inl (openWith_keeps_indexes _ _ _)
  | openWith d sp => exact .inl (openWith_keeps_indexes _ _ _)
  | close => exact .inl (close_keeps_indexes _)
  | token d len => exact htok d len
  | tokenEmpty d => exact htok d 0
  | tokenWith d sp =>
    simp only [Sys.step, Sys.lift, Builder.tokenWith]
    have hi := insert_keeps_indexes (fl := fl) s.b d sp
    have hl := fun new => insert_len (fl := fl) (b := s.b) (d := d) (sp := sp) (new := new)
    generalize s.b.insert fl d sp = r at hi hl
    obtain ⟨b, o⟩ := r
    simp only at hi hl
    cases o with
    | error e => exact .inl hi
    | ok i =>
      right
      have := pushIndex_length (fl := fl) b.tree ⟨sp.start, i⟩
      simp only [modifyOpt_keeps_indexes, modifyOpt_length, pushIndex_nodes]
      rw [hi] at this
      exact ⟨this, hl i rfl⟩
  | checkpoint => rw [checkpoint_step_tree]; exact .inl rfl
  | closeAt k d =>
    simp only [Sys.step]
    cases s.handles[k]? with
    | none => exact .inl rfl
    | some c => exact .inl (closeAt_indexes _ _ _ _ _)
  | closeAtWith k d sp =>
    simp only [Sys.step]
    cases s.handles[k]? with
    | none => exact .inl rfl
    | some c => exact .inl (closeAt_indexes _ _ _ _ _)
  | setCursor i => exact .inl rfl

/-! ## A fixed capacity -/

/-- The same nodes, index, open nodes and checkpoints. -/
structure SameCore (a b : Sys α) : Prop where
  nodes : a.b.tree.nodes = b.b.tree.nodes
  indexes : a.b.tree.indexes = b.b.tree.indexes
  first : a.b.tree.first = b.b.tree.first
  last : a.b.tree.last = b.b.tree.last
  parent : a.b.parent = b.b.parent
  checkpoint : a.b.checkpoint = b.b.checkpoint
  cells : a.cells = b.cells
  handles : a.handles = b.handles

theorem SameCore.refl (a : Sys α) : SameCore a a := ⟨rfl, rfl, rfl, rfl, rfl, rfl, rfl, rfl⟩

theorem SameCore.trans {a b c : Sys α} (h : SameCore a b) (h' : SameCore b c) : SameCore a c :=
  ⟨h.1.trans h'.1, h.2.trans h'.2, h.3.trans h'.3, h.4.trans h'.4, h.5.trans h'.5, h.6.trans h'.6,
    h.7.trans h'.7, h.8.trans h'.8⟩

theorem SameCore.symm {a b : Sys α} (h : SameCore a b) : SameCore b a :=
  ⟨h.1.symm, h.2.symm, h.3.symm, h.4.symm, h.5.symm, h.6.symm, h.7.symm, h.8.symm⟩

theorem SameCore.close {a b : Sys α} (h : SameCore a b) :
    SameCore (a.step fl .close).1 (b.step fl .close).1 ∧
      (a.step fl .close).2 = (b.step fl .close).2 := by
  obtain ⟨⟨⟨an, asp, ai, af, al⟩, ac, ap, asi, acu⟩, ace, ah⟩ := a
  obtain ⟨⟨⟨bn, bsp, bi, bf, bl⟩, bc, bp, bsi, bcu⟩, bce, bh⟩ := b
  obtain ⟨h1, h2, h3, h4, h5, h6, h7, h8⟩ := h
  simp only at h1 h2 h3 h4 h5 h6 h7 h8
  subst h1 h2 h3 h4 h5 h6 h7 h8
  simp only [Sys.step, Sys.lift, Builder.close, Tree.len]
  cases ap with
  | none => exact ⟨⟨rfl, rfl, rfl, rfl, rfl, rfl, rfl, rfl⟩, rfl⟩
  | some head =>
    simp only
    cases an[head]? with
    | none => exact ⟨⟨rfl, rfl, rfl, rfl, rfl, rfl, rfl, rfl⟩, rfl⟩
    | some links =>
      simp only
      cases links.parent with
      | none => exact ⟨⟨rfl, rfl, rfl, rfl, rfl, rfl, rfl, rfl⟩, rfl⟩
      | some id =>
        simp only
        by_cases hlt : id < an.length
        · simp only [hlt, if_true, and_true]; exact ⟨rfl, rfl, rfl, rfl, rfl, rfl, rfl, rfl⟩
        · simp only [hlt, if_false, and_true]; exact ⟨rfl, rfl, rfl, rfl, rfl, rfl, rfl, rfl⟩

theorem SameCore.mkCheckpoint {a b : Sys α} (h : SameCore a b) :
    SameCore (a.step fl .checkpoint).1 (b.step fl .checkpoint).1 ∧
      (a.step fl .checkpoint).2 = (b.step fl .checkpoint).2 := by
  obtain ⟨⟨⟨an, asp, ai, af, al⟩, ac, ap, asi, acu⟩, ace, ah⟩ := a
  obtain ⟨⟨⟨bn, bsp, bi, bf, bl⟩, bc, bp, bsi, bcu⟩, bce, bh⟩ := b
  obtain ⟨h1, h2, h3, h4, h5, h6, h7, h8⟩ := h
  simp only at h1 h2 h3 h4 h5 h6 h7 h8
  subst h1 h2 h3 h4 h5 h6 h7 h8
  simp only [Sys.step, Builder.mkCheckpoint, Tree.len]
  cases ptrNew fl.width an.length with
  | none => exact ⟨⟨rfl, rfl, rfl, rfl, rfl, rfl, rfl, rfl⟩, rfl⟩
  | some node =>
    simp only
    cases ac with
    | none => exact ⟨⟨rfl, rfl, rfl, rfl, rfl, rfl, rfl, rfl⟩, rfl⟩
    | some c =>
      simp only
      cases ace[c]? with
      | none => exact ⟨⟨rfl, rfl, rfl, rfl, rfl, rfl, rfl, rfl⟩, rfl⟩
      | some cell =>
        simp only
        by_cases he : cell.node = node ∧ cell.parent = ap
        · simp only [if_pos he, and_true]; exact ⟨rfl, rfl, rfl, rfl, rfl, rfl, rfl, rfl⟩
        · simp only [if_neg he, and_true]; exact ⟨rfl, rfl, rfl, rfl, rfl, rfl, rfl, rfl⟩

/-- The result of a call that adds no node is not an id. -/
theorem SameCore.noNode {a b : Sys α} (h : SameCore a b) {op : Op α} {o : Out}
    (ho : (a.step fl op).2 = .ok o) (hno : ∀ i, o ≠ .id i) :
    SameCore (a.step fl op).1 (b.step fl op).1 ∧ (b.step fl op).2 = .ok o := by
  have hmap : ∀ {r : Except Err Nat}, r.map Out.id = .ok o → False := by
    intro r hr
    cases r with
    | error e => simp [Except.map] at hr
    | ok i => simp only [Except.map, Except.ok.injEq] at hr; exact hno i hr.symm
  cases op with
  | «open» d => exact (hmap ho).elim
  | openWith d sp => exact (hmap ho).elim
  | token d len => exact (hmap ho).elim
  | tokenEmpty d => exact (hmap ho).elim
  | tokenWith d sp => exact (hmap ho).elim
  | close => obtain ⟨h1, h2⟩ := h.close (fl := fl); exact ⟨h1, h2 ▸ ho⟩
  | checkpoint => obtain ⟨h1, h2⟩ := h.mkCheckpoint (fl := fl); exact ⟨h1, h2 ▸ ho⟩
  | closeAt k d =>
    simp only [Sys.step] at ho ⊢
    cases hk : a.handles[k]? with
    | none => simp only [hk] at ho ⊢; rw [← h.handles, hk]; exact ⟨h, ho⟩
    | some c => simp only [hk] at ho; exact (hmap ho).elim
  | closeAtWith k d sp =>
    simp only [Sys.step] at ho ⊢
    cases hk : a.handles[k]? with
    | none => simp only [hk] at ho ⊢; rw [← h.handles, hk]; exact ⟨h, ho⟩
    | some c => simp only [hk] at ho; exact (hmap ho).elim
  | setCursor i => exact ⟨⟨h.1, h.2, h.3, h.4, h.5, h.6, h.7, h.8⟩, ho⟩

theorem Alone.sameCore {a b : Sys α} {st : List Nat} (h : Alone fl a st) (hc : SameCore b a)
    (hs : ∀ j, b.b.sibling = some j → j < a.b.tree.nodes.length) : Alone fl b st :=
  ⟨⟨h.good.wf.same hc.nodes hc.parent hs, hc.cells ▸ h.good.cells,
    by rw [hc.cells, hc.handles]; exact h.good.handles,
    by rw [hc.checkpoint, hc.cells]; exact h.good.ckpt⟩, by
    intro c cell hcell
    rw [hc.cells] at hcell
    rw [hc.nodes]
    exact h.own c cell hcell⟩

/-- The builder `f` with storage for `n` nodes and the builder `p` that only made the calls that
succeeded. -/
structure Filled (fl : Flavor) (n : Nat) (f : FSys α) (p : Sys α) : Prop where
  core : SameCore f.plain p
  alone : ∃ st, Alone fl f.plain st
  idx : f.f.b.tree.indexes.length ≤ f.f.b.tree.nodes.length
  cap : f.f.b.tree.nodes.length ≤ n
  live : f.f.b.tree.nodes.length < n → f.f.b.tree.nodes.length < 2 ^ fl.width - 1 → f.plain = p

theorem Filled.init (fl : Flavor) (n : Nat) : Filled fl n (FSys.init : FSys α) Sys.init :=
  ⟨SameCore.refl _, ⟨[], Alone.init fl⟩, Nat.le_refl _, Nat.zero_le _, fun _ _ => rfl⟩

theorem idx_step {s : Sys α} {st : List Nat} (h : Good fl s st)
    (hi : s.b.tree.indexes.length ≤ s.b.tree.nodes.length) (op : Op α) :
    (s.step fl op).1.b.tree.indexes.length ≤ (s.step fl op).1.b.tree.nodes.length := by
  obtain ⟨_, st', he⟩ := h.step op
  have := he.len
  rcases step_indexes (fl := fl) s op with h1 | ⟨h1, h2⟩
  · rw [h1]; omega
  · omega

/-- A failing storage of fixed capacity: the call would add a node, and the storage is full. -/
theorem Filled.flavor_iff {n m : Nat} {f : FSys α} {p : Sys α} (h : Filled fl n f p) (hnm : n ≤ m)
    (op : Op α) : (f.step fl (Faults.capacity n m) op).2 = .error .flavor ↔
      (f.plain.step fl op).1.b.tree.len = f.f.b.tree.len + 1 ∧ f.f.b.tree.len = n := by
  rw [FSys.fails_iff]
  have hi := h.idx
  have hc := h.cap
  simp only [Refuses, Faults.capacity, decide_eq_true_eq, Tree.len]
  constructor
  · rintro ⟨h1, h2⟩
    exact ⟨h1, by omega⟩
  · rintro ⟨h1, h2⟩
    exact ⟨h1, .inl (by omega)⟩

theorem Filled.step {n m : Nat} {f : FSys α} {p : Sys α} (h : Filled fl n f p) (hnm : n ≤ m)
    (op : Op α) (hca : op.isCloseAt = true → (f.step fl (Faults.capacity n m) op).2 ≠ .error .flavor) :
    (∀ o, (f.step fl (Faults.capacity n m) op).2 = .ok o →
      (p.step fl op).2 = .ok o ∧ Filled fl n (f.step fl (Faults.capacity n m) op).1 (p.step fl op).1) ∧
    (∀ e, (f.step fl (Faults.capacity n m) op).2 = .error e →
      Filled fl n (f.step fl (Faults.capacity n m) op).1 p) := by
  obtain ⟨st, hal⟩ := h.alone
  have hex := (hal.good.step op).1
  obtain ⟨st', hal', _⟩ := hal.step op
  obtain ⟨_, _, hef⟩ := hal.good.step op
  by_cases hfl : (f.step fl (Faults.capacity n m) op).2 = .error .flavor
  · -- the storage fails
    obtain ⟨hadd, hfull⟩ := (h.flavor_iff hnm op).1 hfl
    obtain ⟨hsf, hwhy⟩ := FSys.step_flavor hfl
    have hcl : op.isCloseAt = false := by
      cases hb : op.isCloseAt with
      | false => rfl
      | true => exact absurd hfl (hca hb)
    refine ⟨fun o ho => by rw [hfl] at ho; simp at ho, fun e _ => ?_⟩
    have hcore : SameCore (f.step fl (Faults.capacity n m) op).1.plain f.plain ∧
        (f.step fl (Faults.capacity n m) op).1.plain.b.sibling = none := by
      have hnode : ¬ (Faults.capacity n m).node f.f.tries.node f.f.b.tree.nodes.length = false := by
        simp only [Faults.capacity, decide_eq_false_iff_not, Tree.len] at hfull ⊢; omega
      cases hwhy with
      | index h1 _ _ => exact absurd h1 hnode
      | node h1 h2 =>
        rcases h2 with h2 | ⟨c, h2⟩ | h2
        · rw [h2]; exact ⟨⟨rfl, rfl, rfl, rfl, rfl, rfl, rfl, rfl⟩, rfl⟩
        · rw [h2]; exact ⟨⟨rfl, rfl, rfl, rfl, rfl, rfl, rfl, rfl⟩, rfl⟩
        · rw [h2] at hcl; simp at hcl
    have hal2 := hal.sameCore hcore.1 (by rw [hcore.2]; simp)
    have hn2 : (f.step fl (Faults.capacity n m) op).1.f.b.tree.nodes = f.f.b.tree.nodes := hcore.1.nodes
    have hi2 : (f.step fl (Faults.capacity n m) op).1.f.b.tree.indexes = f.f.b.tree.indexes :=
      hcore.1.indexes
    refine ⟨hcore.1.trans h.core, ⟨st, hal2⟩, by rw [hn2, hi2]; exact h.idx, by rw [hn2]; exact h.cap, ?_⟩
    intro hlt
    rw [hn2] at hlt
    simp only [Tree.len] at hfull
    omega
  · -- it does not
    obtain ⟨hs, hr⟩ := FSys.step_conserves f op hfl
    have hn2 : (f.step fl (Faults.capacity n m) op).1.f.b.tree =
        (f.plain.step fl op).1.b.tree := by rw [← hs]; rfl
    have hidx : (f.step fl (Faults.capacity n m) op).1.f.b.tree.indexes.length ≤
        (f.step fl (Faults.capacity n m) op).1.f.b.tree.nodes.length := by
      rw [hn2]; exact idx_step hal.good h.idx op
    have hcap : (f.step fl (Faults.capacity n m) op).1.f.b.tree.nodes.length ≤ n := by
      rw [hn2]
      have h0 := mt (h.flavor_iff hnm op).2 hfl
      have hl := hef.len
      have : nodesAdded (expected fl f.plain op) ≤ 1 := by unfold nodesAdded; split <;> omega
      have hc := h.cap
      simp only [Tree.len, FSys.plain] at *
      omega
    constructor
    · intro o ho
      rw [ho] at hr
      have hr' : (f.plain.step fl op).2 = .ok o := by
        generalize (f.plain.step fl op).2 = x at hr
        cases x with
        | error e => simp [Except.mapError] at hr
        | ok v => simp only [Except.mapError, Except.ok.injEq] at hr; rw [hr]
      by_cases hlive : f.f.b.tree.nodes.length < n ∧ f.f.b.tree.nodes.length < 2 ^ fl.width - 1
      · have he := h.live hlive.1 hlive.2
        rw [← he]
        exact ⟨hr', ⟨hs ▸ SameCore.refl _, ⟨st', hs ▸ hal'⟩, hidx, hcap, fun _ _ => hs⟩⟩
      · have hno : ∀ i, o ≠ .id i := by
          rintro i rfl
          have hl := hef.len
          rw [← hex, hr'] at hl
          have hcap' := hef.good.wf.cap
          have hc := h.cap
          rw [hn2] at hcap
          simp only [nodesAdded, FSys.plain] at *
          omega
        obtain ⟨h1, h2⟩ := h.core.noNode hr' hno
        refine ⟨h2, ⟨hs ▸ h1, ⟨st', hs ▸ hal'⟩, hidx, hcap, ?_⟩⟩
        intro h3 h4
        exfalso; apply hlive
        have hl := hef.len
        rw [← hn2] at hl
        simp only [FSys.plain] at hl
        omega
    · intro e he
      rw [he] at hr
      obtain ⟨e', hr', rfl⟩ : ∃ e', (f.plain.step fl op).2 = .error e' ∧ e = .base e' := by
        generalize (f.plain.step fl op).2 = x at hr
        cases x with
        | error e' => simp only [Except.mapError, Except.error.injEq] at hr; exact ⟨e', rfl, hr⟩
        | ok v => simp [Except.mapError] at hr
      rcases hal.good.fail hr' with h1 | ⟨d, len, c, rfl, _, _, hov, _, h1⟩ | ⟨k, rfl⟩
      · rw [h1] at hs hn2 hal'
        refine ⟨hs ▸ h.core, ⟨st', hs ▸ hal'⟩, hidx, hcap, ?_⟩
        rw [hn2, hs]
        exact h.live
      · have hsc : SameCore (f.step fl (Faults.capacity n m) (.token d len)).1.plain f.plain := by
          rw [hs, h1]; exact ⟨rfl, rfl, rfl, rfl, rfl, rfl, rfl, rfl⟩
        refine ⟨hsc.trans h.core, ⟨st', hs ▸ hal'⟩, hidx, hcap, ?_⟩
        intro _ h3
        rw [hn2, h1] at h3
        exact absurd h3 hov
      · exact absurd hr' (hal.no_missing op k)

theorem Filled.run {n m : Nat} (hnm : n ≤ m) (ops : List (Op α)) {f : FSys α} {p : Sys α}
    (h : Filled fl n f p)
    (hca : ∀ x ∈ ops.zip (f.run fl (Faults.capacity n m) ops).2,
      x.1.isCloseAt = true → x.2 ≠ .error .flavor) :
    Filled fl n (f.run fl (Faults.capacity n m) ops).1
      (p.run fl (succeeded ops (f.run fl (Faults.capacity n m) ops).2)).1 ∧
    (p.run fl (succeeded ops (f.run fl (Faults.capacity n m) ops).2)).2 =
      goodResults (f.run fl (Faults.capacity n m) ops).2 := by
  induction ops generalizing f p with
  | nil => exact ⟨h, rfl⟩
  | cons op ops ih =>
    simp only [FSys.run, List.zip_cons_cons, List.mem_cons] at hca ⊢
    obtain ⟨h1, h2⟩ := h.step hnm op (fun hc => hca _ (.inl rfl) hc)
    have hca' := fun x hx => hca x (.inr hx)
    cases ho : (f.step fl (Faults.capacity n m) op).2 with
    | ok o =>
      obtain ⟨h3, h4⟩ := h1 o ho
      obtain ⟨h5, h6⟩ := ih h4 hca'
      simp only [succeeded, goodResults, List.zip_cons_cons, List.filterMap_cons, Sys.run] at h5 h6 ⊢
      exact ⟨h5, by rw [h3, h6]⟩
    | error e =>
      obtain ⟨h5, h6⟩ := ih (h2 e ho) hca'
      simp only [succeeded, goodResults, List.zip_cons_cons, List.filterMap_cons] at h5 h6 ⊢
      exact ⟨h5, h6⟩

end Syntree
