import Verif.Proof.Storeless

namespace Syntree

variable {α : Type} {fl : Flavor}

theorem runK_append (keep : Bool) (a : List (Op α)) : ∀ (b : List (Op α)) (s : Sys α),
    s.runK keep fl (a ++ b) = (((s.runK keep fl a).1.runK keep fl b).1,
      (s.runK keep fl a).2 ++ ((s.runK keep fl a).1.runK keep fl b).2) := by
  induction a with
  | nil => intro b s; rfl
  | cons op a ih => intro b s; simp only [List.cons_append, Sys.runK, ih]

theorem runK_length (keep : Bool) (a : List (Op α)) : ∀ (s : Sys α),
    (s.runK keep fl a).2.length = a.length := by
  induction a with
  | nil => intro s; rfl
  | cons op a ih => intro s; simp only [Sys.runK, List.length_cons, ih]

/-- `insert` leaves the cursor and the span of the tree. -/
theorem insert_text (b : Builder α) (d : α) (sp : Span) :
    (b.insert fl d sp).1.cursor = b.cursor ∧ (b.insert fl d sp).1.tree.span = b.tree.span := by
  unfold Builder.insert
  split
  · exact ⟨rfl, rfl⟩
  · refine ⟨rfl, ?_⟩
    simp only [Tree.modifyOpt, Tree.modifyNode, Tree.addRoot, Tree.push]
    cases b.parent <;> cases b.sibling <;> rfl

theorem token_text (b : Builder α) (d : α) (n : Nat) :
    (b.token fl d n).1.cursor = (if fl.ik.lenIsEmpty n then b.cursor else
      (fl.ik.checkedAddLen b.cursor n).getD b.cursor) ∧
    (b.token fl d n).1.tree.span = (if fl.ik.lenIsEmpty n then b.tree.span else
      match fl.ik.checkedAddLen b.cursor n with
      | none => b.tree.span
      | some c => { b.tree.span with stop := c }) := by
  by_cases hn : fl.ik.lenIsEmpty n = true
  · have := insert_text (fl := fl) b d (Span.new b.cursor b.cursor)
    simp only [Builder.token, hn, if_true]
    rcases hi : b.insert fl d (Span.new b.cursor b.cursor) with ⟨b', _ | id⟩
    · rw [hi] at this; exact this
    · rw [hi] at this; exact this
  · simp only [Builder.token, hn, if_false, Bool.false_eq_true]
    cases hc : fl.ik.checkedAddLen b.cursor n with
    | none => exact ⟨rfl, rfl⟩
    | some c =>
      have := insert_text (fl := fl) { b with
        cursor := c, tree := { b.tree with span := { b.tree.span with stop := c } } } d
        (Span.new b.cursor c)
      dsimp only at this ⊢
      rcases hi : Builder.insert fl { b with
        cursor := c, tree := { b.tree with span := { b.tree.span with stop := c } } } d
        (Span.new b.cursor c) with ⟨b', _ | id⟩
      · rw [hi] at this; exact this
      · rw [hi] at this
        exact ⟨this.1, (pushIndex_nodes' _ _ _).2.trans this.2⟩

theorem text_alike (hw : 0 < fl.width) (ops : List (Op α)) :
    (∀ op ∈ ops, (∃ d n, op = .token d n) ∨ (∃ d, op = .tokenEmpty d) ∨ ∃ i, op = .setCursor i) →
    ∀ {s s' : Sys α} {h : Husk}, HuskRep s h →
    s.b.cursor = s'.b.cursor → s.b.tree.span = s'.b.tree.span →
    (s.runK false fl ops).1.b.cursor = (s'.run fl ops).1.b.cursor ∧
    (s.runK false fl ops).1.b.tree.span = (s'.run fl ops).1.b.tree.span := by
  induction ops with
  | nil => intro _ s s' h _ h1 h2; exact ⟨h1, h2⟩
  | cons op ops ih =>
    intro ht s s' h hr h1 h2
    simp only [Sys.runK, Sys.run]
    have hr' := (hr.step hw op).1
    have hc' := hr'.cursor
    have hs' := hr'.span
    refine ih (fun o ho => ht o (by simp [ho])) hr' ?_ ?_
    · rw [hc']
      rcases ht op (by simp) with ⟨d, n, rfl⟩ | ⟨d, rfl⟩ | ⟨i, rfl⟩
      · show _ = (s'.b.token fl d n).1.cursor
        rw [(token_text _ _ _).1, ← h1, hr.cursor]
        simp only [Husk.step]
        split
        · rfl
        · cases fl.ik.checkedAddLen h.cursor n <;> rfl
      · show _ = (s'.b.token fl d 0).1.cursor
        have he : fl.ik.lenIsEmpty 0 = true := by cases fl.ik <;> rfl
        rw [(token_text _ _ _).1, ← h1, hr.cursor, if_pos he]
        rfl
      · rfl
    · rw [hs']
      rcases ht op (by simp) with ⟨d, n, rfl⟩ | ⟨d, rfl⟩ | ⟨i, rfl⟩
      · show _ = (s'.b.token fl d n).1.tree.span
        rw [(token_text _ _ _).2, ← h1, ← h2, hr.cursor, hr.span]
        simp only [Husk.step]
        split
        · rfl
        · cases fl.ik.checkedAddLen h.cursor n <;> rfl
      · show _ = (s'.b.token fl d 0).1.tree.span
        have he : fl.ik.lenIsEmpty 0 = true := by cases fl.ik <;> rfl
        rw [(token_text _ _ _).2, ← h2, hr.span, if_pos he]
        rfl
      · show _ = s'.b.tree.span
        rw [← h2, hr.span]; rfl

end Syntree
