import Verif.Proof.Full

/-! The count of attempts to store something. -/

namespace Syntree

variable {α : Type} {fl : Flavor} {ft : Faults}

/-- The count after an attempt to store a node, and an index entry if this succeeded. -/
def Tries.after (ft : Faults) (s : FSys α) (indexed : Bool) : Tries :=
  ⟨s.f.tries.node + 1, s.f.tries.index +
    if indexed && !ft.node s.f.tries.node s.f.b.tree.nodes.length then 1 else 0⟩

theorem insert_tries {s s' : FBuilder α} {d : α} {sp : Span} {o : Except FErr Nat}
    (h : s.insert fl ft d sp = (s', o)) :
    (o = .error (.base .overflow) ∧ s' = s ∧ s.b.insert fl d sp = (s.b, .error .overflow)) ∨
    (s'.tries = { s.tries with node := s.tries.node + 1 } ∧
      (∃ b' new, s.b.insert fl d sp = (b', .ok new) ∧
        b'.tree.nodes.length = s.b.tree.nodes.length + 1) ∧
      ((ft.node s.tries.node s.b.tree.nodes.length = true ∧ o = .error .flavor) ∨
       (ft.node s.tries.node s.b.tree.nodes.length = false ∧ ∃ new, o = .ok new ∧
         s'.b = (s.b.insert fl d sp).1 ∧ (s.b.insert fl d sp).2 = .ok new))) := by
  have hl := fun new => insert_len (fl := fl) (b := s.b) (d := d) (sp := sp) (new := new)
  unfold FBuilder.insert at h
  unfold Builder.insert at hl ⊢
  cases hp : ptrNew fl.width s.b.tree.len with
  | none =>
    rw [hp] at h
    simp only [Prod.mk.injEq] at h
    exact .inl ⟨h.2.symm, h.1.symm, rfl⟩
  | some new =>
    rw [hp] at h hl
    simp only [Tree.pushF] at h hl ⊢
    refine .inr ?_
    cases hf : ft.node s.tries.node s.b.tree.nodes.length with
    | true =>
      rw [hf] at h
      simp only [if_true, Prod.mk.injEq] at h
      obtain ⟨rfl, rfl⟩ := h
      exact ⟨rfl, ⟨_, new, rfl, hl new rfl⟩, .inl ⟨rfl, rfl⟩⟩
    | false =>
      rw [hf] at h
      simp only [Bool.false_eq_true, if_false, Prod.mk.injEq] at h
      obtain ⟨rfl, rfl⟩ := h
      exact ⟨rfl, ⟨_, new, rfl, hl new rfl⟩, .inr ⟨rfl, new, rfl, rfl, rfl⟩⟩

/-- What one call does to the count. -/
def Counted (fl : Flavor) (ft : Faults) (s s' : FSys α) (p : Sys α) (indexed : Bool) : Prop :=
  s'.f.tries = if p.b.tree.nodes.length = s.f.b.tree.nodes.length + 1 then .after ft s indexed
    else s.f.tries

theorem Counted.openWith (s : FSys α) (d : α) (sp : Span) :
    Counted fl ft s (s.lift .id (s.f.openWith fl ft d sp)).1
      (s.plain.lift .id (s.f.b.openWith fl d sp)).1 false := by
  unfold FBuilder.openWith Builder.openWith Counted
  cases h : s.f.insert fl ft d sp with
  | mk s' o =>
    rcases insert_tries h with ⟨rfl, rfl, e⟩ | ⟨e1, ⟨b', new, e2, e3⟩, e4⟩
    · rw [e]; simp [FSys.lift, Sys.lift]
    · rw [e2]
      simp only [Sys.lift, e3, if_true, Tries.after, Bool.false_and, Bool.false_eq_true, if_false]
      rcases e4 with ⟨_, rfl⟩ | ⟨_, new, rfl, _⟩ <;> exact e1

theorem Counted.token (s : FSys α) (d : α) (len : Nat) :
    Counted fl ft s (s.lift .id (s.f.token fl ft d len)).1
      (s.plain.lift .id (s.f.b.token fl d len)).1 (! fl.ik.lenIsEmpty len) := by
  unfold FBuilder.token Builder.token Counted
  dsimp only
  have key : ∀ b1 : Builder α, b1.tree.nodes = s.f.b.tree.nodes →
      (s.lift .id (match FBuilder.insert fl ft ⟨b1, s.f.tries⟩ d (Span.new s.f.b.cursor b1.cursor) with
        | (s, .error e) => (s, .error e)
        | (s, .ok id) =>
          if fl.ik.lenIsEmpty len then ({ s with b := { s.b with sibling := some id } }, .ok id)
          else
            match Tree.pushIndexF fl ft s.tries.index s.b.tree ⟨s.b.cursor, id⟩ with
            | none => (⟨{ s.b with sibling := some id },
                { s.tries with index := s.tries.index + 1 }⟩, .error .flavor)
            | some t => (⟨{ s.b with sibling := some id, tree := t },
                { s.tries with index := s.tries.index + 1 }⟩, .ok id) : FRes α Nat)).1.f.tries =
      if (s.plain.lift .id (match b1.insert fl d (Span.new s.f.b.cursor b1.cursor) with
        | (b, .error e) => (b, .error e)
        | (b, .ok id) =>
          if fl.ik.lenIsEmpty len then ({ b with sibling := some id }, .ok id)
          else ({ b with sibling := some id, tree := b.tree.pushIndex fl ⟨b.cursor, id⟩ }, .ok id) :
            Res α Nat)).1.b.tree.nodes.length = s.f.b.tree.nodes.length + 1
      then .after ft s (! fl.ik.lenIsEmpty len) else s.f.tries := by
    intro b1 h1
    cases h : FBuilder.insert fl ft ⟨b1, s.f.tries⟩ d (Span.new s.f.b.cursor b1.cursor) with
    | mk s' o =>
      rcases insert_tries h with ⟨rfl, rfl, e⟩ | ⟨e1, ⟨b', new, e2, e3⟩, e4⟩
      · simp only at e
        rw [e]; simp [FSys.lift, Sys.lift, h1]
      · simp only at e1 e2 e3 e4
        rw [e2]
        rw [h1] at e3 e4
        have hlen : ∀ (x : Bool), (s.plain.lift .id (if x then
            ({ b' with sibling := some new }, .ok new)
            else ({ b' with sibling := some new, tree := b'.tree.pushIndex fl ⟨b'.cursor, new⟩ }, .ok new) :
            Res α Nat)).1.b.tree.nodes.length = s.f.b.tree.nodes.length + 1 := by
          intro x
          cases x with
          | true => exact e3
          | false => simp only [Bool.false_eq_true, if_false, Sys.lift, pushIndex_nodes]; exact e3
        simp only [hlen, if_true, Tries.after]
        rcases e4 with ⟨hf, rfl⟩ | ⟨hf, new', rfl, _⟩
        · simp [FSys.lift, e1, hf]
        · simp only [hf, Bool.not_false, Bool.and_true]
          cases fl.ik.lenIsEmpty len with
          | true => simp [FSys.lift, e1]
          | false =>
            simp only [Bool.false_eq_true, if_false, Bool.not_false, if_true]
            split <;> simp [FSys.lift, e1]
  cases he : fl.ik.lenIsEmpty len with
  | true =>
    have := key s.f.b rfl
    simp only [he, if_true] at this ⊢
    exact this
  | false =>
    simp only [Bool.false_eq_true, if_false]
    cases ha : fl.ik.checkedAddLen s.f.b.cursor len with
    | none => simp [FSys.lift, Sys.lift]
    | some c =>
      have := key { s.f.b with
          cursor := c, tree := { s.f.b.tree with span := { s.f.b.tree.span with stop := c } } } rfl
      simp only [he, Bool.false_eq_true, if_false] at this
      exact this

theorem Counted.tokenWith (s : FSys α) (d : α) (sp : Span) :
    Counted fl ft s (s.lift .id (s.f.tokenWith fl ft d sp)).1
      (s.plain.lift .id (s.f.b.tokenWith fl d sp)).1 true := by
  unfold FBuilder.tokenWith Builder.tokenWith Counted
  cases h : s.f.insert fl ft d sp with
  | mk s' o =>
    rcases insert_tries h with ⟨rfl, rfl, e⟩ | ⟨e1, ⟨b', new, e2, e3⟩, e4⟩
    · rw [e]; simp [FSys.lift, Sys.lift]
    · rw [e2]
      simp only [Sys.lift, modifyOpt_length, pushIndex_nodes, e3, if_true, Tries.after, Bool.true_and]
      rcases e4 with ⟨hf, rfl⟩ | ⟨hf, new, rfl, _⟩
      · simp [FSys.lift, e1, hf]
      · simp only [hf, Bool.not_false, if_true]
        split <;> simp [FSys.lift, e1]

theorem Counted.closeAt (s : FSys α) (c : Nat) (d : α) (ex : Option Span) :
    Counted fl ft s ⟨(s.f.closeAtCore fl ft s.cells c d ex).2.1, s.cells, s.handles⟩
      ⟨(s.f.b.closeAtCore fl s.cells c d ex).2.1, s.cells, s.handles⟩ false := by
  unfold Counted
  simp only [Tries.after, Bool.false_and, Bool.false_eq_true, if_false, Nat.add_zero]
  cases hcell : s.cells[c]? with
  | none => simp [FBuilder.closeAtCore, Builder.closeAtCore, hcell]
  | some cell =>
    by_cases hp : cell.parent ≠ s.f.b.parent
    · simp [FBuilder.closeAtCore, Builder.closeAtCore, hcell, hp]
    · cases hn : ptrNew fl.width s.f.b.tree.len with
      | none => simp [FBuilder.closeAtCore, Builder.closeAtCore, hcell, hp, hn]
      | some newId =>
        simp only [FBuilder.closeAtCore, Builder.closeAtCore, hcell, hp, hn, if_false]
        cases hl : s.f.b.tree.nodes[cell.node]? with
        | none =>
          simp only
          cases h : s.f.insert fl ft d (ex.getD (Span.point s.f.b.cursor)) with
          | mk s' o =>
            rcases insert_tries h with ⟨rfl, rfl, e⟩ | ⟨e1, ⟨b', new, e2, e3⟩, e4⟩
            · rw [e]; simp
            · rw [e2]
              have hl2 : (if new ≠ cell.node then
                  (s.cells, b', (.error (.missingNode new) : Except Err Nat))
                  else (s.cells, { b' with sibling := some new }, .ok new)).2.1.tree.nodes.length =
                  s.f.b.tree.nodes.length + 1 := by
                split <;> exact e3
              simp only [hl2, if_true]
              rcases e4 with ⟨_, rfl⟩ | ⟨_, new', rfl, _⟩
              · simp [e1]
              · simp only
                split <;> simp [e1]
        | some links =>
          simp only
          have hlen := reparent_length newId cell.node links s.f.b.tree.nodes
          obtain ⟨nodes, o, hr⟩ : ∃ nodes o,
              reparent newId cell.node links s.f.b.tree.nodes = (nodes, o) := ⟨_, _, rfl⟩
          simp only [hr] at hlen ⊢
          cases o with
          | error er => simp [hlen]
          | ok q =>
            obtain ⟨last, span⟩ := q
            simp only [← relinkOnly_push, Tree.push, List.length_append, relinkOnly_nodes_length, hlen,
              List.length_singleton, if_true]
            split <;> rfl

theorem FSys.counted (s : FSys α) (op : Op α) :
    Counted fl ft s (s.step fl ft op).1 (s.plain.step fl op).1 (op.indexed fl) := by
  have hca : ∀ (k : Nat) (d : α) (e : Option Span), UsesAt op k d e →
      Counted fl ft s (s.step fl ft op).1 (s.plain.step fl op).1 (op.indexed fl) := by
    intro k d e hu
    have hi : op.indexed fl = false := by cases hu <;> rfl
    rw [hi]
    cases hk : s.handles[k]? with
    | none =>
      cases hu <;> simp [Counted, FSys.step, Sys.step, FSys.plain, hk]
    | some c =>
      have := Counted.closeAt (fl := fl) (ft := ft) s c d e
      cases hu <;> simpa [Counted, FSys.step, Sys.step, FSys.plain, hk, Builder.closeAt,
        Builder.closeAtWith] using this
  cases op with
  | «open» d => exact .openWith s d _
  | openWith d sp => exact .openWith s d sp
  | close =>
    have := close_len s.f.b
    simp [Counted, FSys.step, Sys.step, FSys.plain, FSys.lift, Sys.lift, FBuilder.close, this]
  | token d n => exact .token s d n
  | tokenEmpty d =>
    have := Counted.token (fl := fl) (ft := ft) s d 0
    rw [lenIsEmpty_at_zero] at this
    exact this
  | tokenWith d sp => exact .tokenWith s d sp
  | checkpoint =>
    unfold Counted
    have hlen : (s.plain.step fl .checkpoint).1.b.tree.nodes.length = s.f.b.tree.nodes.length := by
      rw [checkpoint_step_tree]; rfl
    rw [hlen, if_neg (by omega)]
    simp only [FSys.step, FBuilder.mkCheckpoint]
    generalize s.f.b.mkCheckpoint fl s.cells = r
    obtain ⟨cells, b, o⟩ := r
    cases o <;> rfl
  | closeAt k d => exact hca k d none (.closeAt k d)
  | closeAtWith k d sp => exact hca k d (some sp) (.closeAtWith k d sp)
  | setCursor i => simp [Counted, FSys.step, Sys.step, FSys.plain, Builder.setCursor]

end Syntree
