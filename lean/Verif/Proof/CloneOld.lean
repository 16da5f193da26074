import Verif.Proof.Clone

/-! Checkpoints with a node made between them are different. -/

namespace Syntree

variable {α : Type} {fl : Flavor}

theorem mk_checkpoint_cases {s : Sys α} {st : List Nat} (h : Alone fl s st) :
    (∃ e, s.step fl .checkpoint = (s, .error e)) ∨
    ∃ c, (s.step fl .checkpoint).2 = .ok (.handle s.handles.length) ∧
      (s.step fl .checkpoint).1.handles = s.handles ++ [c] ∧
      (s.step fl .checkpoint).1.b.checkpoint = some c ∧
      c < (s.step fl .checkpoint).1.cells.length ∧
      (∀ N, N ≤ s.cells.length → (∀ (c : Nat) (cell : Cell), c < N → s.cells[c]? = some cell →
        cell.node < s.b.tree.len) → N ≤ c) ∧
      (∃ l, (s.step fl .checkpoint).1.cells = s.cells ++ l) ∧
      (s.step fl .checkpoint).1.b.tree = s.b.tree := by
  simp only [Sys.step, Builder.mkCheckpoint]
  cases hn : ptrNew fl.width s.b.tree.len with
  | none => exact .inl ⟨_, rfl⟩
  | some node =>
    have hnode := ptrNew_some hn
    right
    simp only
    cases hc : s.b.checkpoint with
    | none =>
      exact ⟨s.cells.length, rfl, rfl, rfl, by simp, fun N hN _ => hN, ⟨_, rfl⟩, rfl⟩
    | some c =>
      have hl := h.good.ckpt c hc
      simp only
      rw [List.getElem?_eq_getElem hl]
      simp only
      by_cases ht : s.cells[c].node = node ∧ s.cells[c].parent = s.b.parent
      · rw [if_pos ht]
        refine ⟨c, rfl, rfl, hc, hl, fun N hN hst => ?_, ⟨[], by simp⟩, rfl⟩
        apply Nat.le_of_not_lt
        intro hlt
        have := hst c _ hlt (List.getElem?_eq_getElem hl)
        omega
      · rw [if_neg ht]
        exact ⟨s.cells.length, rfl, rfl, rfl, by simp, fun N hN _ => hN, ⟨_, rfl⟩, rfl⟩

/-- Calls other than `checkpoint` take no checkpoint. -/
theorem step_other (s : Sys α) {op : Op α} (h1 : op ≠ .checkpoint) :
    (s.step fl op).1.handles = s.handles ∧
    (s.step fl op).1.b.checkpoint = s.b.checkpoint ∧
    (∀ g, (s.step fl op).2 ≠ .ok (.handle g)) ∧
    (s.step fl op).1.cells.length = s.cells.length := by
  have plain : ∀ {β : Type} (f : β → Out) (m : Builder α → Res α β),
      (∀ x g, f x ≠ .handle g) → (∀ b c, m (b.ck c) = ((m b).1.ck c, (m b).2)) →
      s.step fl op = s.lift f (m s.b) →
      (s.step fl op).1.handles = s.handles ∧
      (s.step fl op).1.b.checkpoint = s.b.checkpoint ∧
      (∀ g, (s.step fl op).2 ≠ .ok (.handle g)) ∧
      (s.step fl op).1.cells.length = s.cells.length := by
    intro β f m hf hm e
    rw [e]
    refine ⟨rfl, ?_, ?_, rfl⟩
    · have := hm s.b s.b.checkpoint
      rw [show s.b.ck s.b.checkpoint = s.b from rfl] at this
      exact ck_checkpoint (congrArg Prod.fst this).symm
    · intro g
      simp only [Sys.lift]
      cases (m s.b).2 with
      | error e => simp [Except.map]
      | ok x => simp only [Except.map]; intro h; exact hf x g (by simpa using h)
  have hat : ∀ (n : Nat) (d : α) (e : Option Span),
      (s.step fl op = match s.handles[n]? with
        | none => (s, .ok .unit)
        | some c => (⟨(s.b.closeAtCore fl s.cells c d e).2.1,
            (s.b.closeAtCore fl s.cells c d e).1, s.handles⟩,
            (s.b.closeAtCore fl s.cells c d e).2.2.map .id)) →
      (s.step fl op).1.handles = s.handles ∧
      (s.step fl op).1.b.checkpoint = s.b.checkpoint ∧
      (∀ g, (s.step fl op).2 ≠ .ok (.handle g)) ∧
      (s.step fl op).1.cells.length = s.cells.length := by
    intro n d e he
    rw [he]
    cases s.handles[n]? with
    | none => exact ⟨rfl, rfl, by simp, rfl⟩
    | some c =>
      refine ⟨rfl, closeAtCore_checkpoint _ _ _ _ _, ?_, ?_⟩
      · intro g
        simp only
        cases (s.b.closeAtCore fl s.cells c d e).2.2 <;> simp [Except.map]
      · obtain ⟨y, hy, _⟩ := closeAtCore_ck (fl := fl) s.b none s.cells s.cells c c rfl d e
        simp only [hy, upd_length]
  cases op with
  | «open» d => exact plain .id (fun b => b.open fl d) (by simp) (fun b c => open_ck b c d) rfl
  | openWith d sp =>
    exact plain .id (fun b => b.openWith fl d sp) (by simp) (fun b c => openWith_ck b c d sp) rfl
  | close => exact plain (fun _ => .unit) (fun b => b.close) (by simp) (fun b c => close_ck b c) rfl
  | token d n =>
    exact plain .id (fun b => b.token fl d n) (by simp) (fun b c => token_ck b c d n) rfl
  | tokenEmpty d =>
    exact plain .id (fun b => b.token fl d 0) (by simp) (fun b c => token_ck b c d 0) rfl
  | tokenWith d sp =>
    exact plain .id (fun b => b.tokenWith fl d sp) (by simp) (fun b c => tokenWith_ck b c d sp) rfl
  | checkpoint => exact absurd rfl h1
  | closeAt n d => exact hat n d none rfl
  | closeAtWith n d sp => exact hat n d (some sp) rfl
  | setCursor i =>
    exact plain (fun _ => .unit) (fun b => (b.setCursor i, .ok ())) (by simp) (fun b c => rfl) rfl

/-- The first `N` checkpoints are out of date. -/
def StaleBelow (N : Nat) (s : Sys α) : Prop :=
  ∀ (c : Nat) (cell : Cell), c < N → s.cells[c]? = some cell → cell.node < s.b.tree.len

theorem step_keeps_more {s : Sys α} {st : List Nat} (h : Alone fl s st) (op : Op α) :
    s.cells.length ≤ (s.step fl op).1.cells.length ∧
    (∃ l, (s.step fl op).1.handles = s.handles ++ l) := by
  by_cases h1 : op = .checkpoint
  · subst h1
    rcases mk_checkpoint_cases h with ⟨e, he⟩ | ⟨c, _, h2, _, _, _, ⟨l, h3⟩, _⟩
    · rw [he]; exact ⟨Nat.le_refl _, [], by simp⟩
    · rw [h2, h3]; exact ⟨by simp, _, rfl⟩
  · obtain ⟨h2, _, _, h3⟩ := step_other (fl := fl) s h1
    exact ⟨by omega, [], by simp [h2]⟩

theorem run_handles {ops : List (Op α)} : ∀ {s : Sys α} {st : List Nat}, Alone fl s st →
    ∃ l, (s.run fl ops).1.handles = s.handles ++ l := by
  induction ops with
  | nil => intro s st _; exact ⟨[], by simp [Sys.run]⟩
  | cons op ops ih =>
    intro s st h
    obtain ⟨st', h', _⟩ := h.step op
    obtain ⟨l, hl⟩ := ih h'
    obtain ⟨_, l', hl'⟩ := step_keeps_more h op
    exact ⟨l' ++ l, by simp only [Sys.run]; rw [hl, hl', List.append_assoc]⟩

theorem StaleBelow.step {N : Nat} {s : Sys α} {st : List Nat} (hA : Alone fl s st)
    (h : StaleBelow N s) (hN : N ≤ s.cells.length) (op : Op α) :
    StaleBelow N (s.step fl op).1 := by
  by_cases h1 : op = .checkpoint
  · subst h1
    rcases mk_checkpoint_cases hA with ⟨e, he⟩ | ⟨c, _, _, _, _, _, ⟨l, h3⟩, h4⟩
    · rw [he]; exact h
    · intro c cell hc hcell
      rw [h3, List.getElem?_append_left (by omega)] at hcell
      rw [h4]
      exact h c cell hc hcell
  · cases hi : idOf (s.step fl op).2 with
    | none =>
      intro c cell hc hcell
      rw [Sys.step_quiet s op h1 hi] at hcell
      exact Nat.lt_of_lt_of_le (h c cell hc hcell) (Sys.step_len_le s op)
    | some i =>
      intro c cell _ hcell
      exact hA.stale_step h1 (.inr (by rw [hi]; rfl)) c cell hcell

/-- Checkpoints returned while the first `N` are out of date are none of these. -/
theorem returned_later {ops : List (Op α)} : ∀ {s : Sys α} {st : List Nat} {N : Nat},
    Alone fl s st → StaleBelow N s → N ≤ s.cells.length → ∀ (r g : Nat),
    (s.run fl ops).2[r]? = some (.ok (.handle g)) →
    ∃ c, (s.run fl ops).1.handles[g]? = some c ∧ N ≤ c := by
  induction ops with
  | nil => intro s st N _ _ _ r g h; simp [Sys.run] at h
  | cons op ops ih =>
    intro s st N hA hs hN r g h
    obtain ⟨st', hA', _⟩ := hA.step op
    simp only [Sys.run] at h ⊢
    cases r with
    | succ r =>
      simp only [List.getElem?_cons_succ] at h
      exact ih hA' (hs.step hA hN op) (Nat.le_trans hN (step_keeps_more hA op).1) r g h
    | zero =>
      simp only [List.getElem?_cons_zero, Option.some.injEq] at h
      by_cases h1 : op = .checkpoint
      · subst h1
        rcases mk_checkpoint_cases hA with ⟨e, he⟩ | ⟨c, h2, h3, _, _, h4, _, _⟩
        · rw [he] at h; cases h
        · rw [h2] at h
          simp only [Except.ok.injEq, Out.handle.injEq] at h
          subst h
          obtain ⟨l, hl⟩ := run_handles (ops := ops) hA'
          refine ⟨c, ?_, h4 N hN hs⟩
          rw [hl, h3]; simp
      · exact absurd h ((step_other (fl := fl) s h1).2.2.1 g)

/-- Checkpoints returned after a node was made are new. -/
theorem returned_new {ops : List (Op α)} : ∀ {s : Sys α} {st : List Nat},
    Alone fl s st → ∀ (q r g : Nat) (o : Except Err Out), q < r →
    (s.run fl ops).2[q]? = some o → (idOf o).isSome →
    (s.run fl ops).2[r]? = some (.ok (.handle g)) →
    ∃ c, (s.run fl ops).1.handles[g]? = some c ∧ s.cells.length ≤ c := by
  induction ops with
  | nil => intro s st _ q r g o _ h; simp [Sys.run] at h
  | cons op ops ih =>
    intro s st hA q r g o hqr hq hi h
    obtain ⟨st', hA', _⟩ := hA.step op
    obtain ⟨hg, _⟩ := step_keeps_more hA op
    obtain ⟨r, rfl⟩ : ∃ r', r = r' + 1 := ⟨r - 1, by omega⟩
    simp only [Sys.run, List.getElem?_cons_succ] at h hq ⊢
    cases q with
    | zero =>
      simp only [List.getElem?_cons_zero, Option.some.injEq] at hq
      have h1 : op ≠ .checkpoint := by
        rintro rfl
        rcases mk_checkpoint_cases hA with ⟨e, he⟩ | ⟨c, h2, _⟩
        · rw [he] at hq; subst hq; simp [idOf] at hi
        · rw [h2] at hq; subst hq; simp [idOf] at hi
      have hst := hA.stale_step h1 (.inr (hq ▸ hi))
      obtain ⟨c, h2, h3⟩ := returned_later hA' (fun c cell _ => hst c cell) (Nat.le_refl _) r g h
      exact ⟨c, h2, Nat.le_trans hg h3⟩
    | succ q =>
      simp only [List.getElem?_cons_succ] at hq
      obtain ⟨c, h2, h3⟩ := ih hA' q r g o (by omega) hq hi h
      exact ⟨c, h2, Nat.le_trans hg h3⟩

/-- Checkpoints with a node made between them are different. -/
theorem made_between {ops : List (Op α)} : ∀ {s : Sys α} {st : List Nat},
    Alone fl s st → ∀ (g g' : Nat), MadeBetween (s.run fl ops).2 g g' →
    ∃ c c', (s.run fl ops).1.handles[g]? = some c ∧ (s.run fl ops).1.handles[g']? = some c' ∧
      c ≠ c' := by
  induction ops with
  | nil =>
    rintro s st _ g g' ⟨p, q, r, o, _, _, h, _⟩
    simp [Sys.run] at h
  | cons op ops ih =>
    rintro s st hA g g' ⟨p, q, r, o, hpq, hqr, hp, hq, hi, hr⟩
    obtain ⟨st', hA', _⟩ := hA.step op
    obtain ⟨q, rfl⟩ : ∃ r', q = r' + 1 := ⟨q - 1, by omega⟩
    obtain ⟨r, rfl⟩ : ∃ r', r = r' + 1 := ⟨r - 1, by omega⟩
    simp only [Sys.run, List.getElem?_cons_succ] at hp hq hr ⊢
    cases p with
    | succ p =>
      simp only [List.getElem?_cons_succ] at hp
      exact ih hA' g g' ⟨p, q, r, o, by omega, by omega, hp, hq, hi, hr⟩
    | zero =>
      simp only [List.getElem?_cons_zero, Option.some.injEq] at hp
      obtain ⟨c', h5, h6⟩ := returned_new hA' q r g' o (by omega) hq hi hr
      by_cases h1 : op = .checkpoint
      · subst h1
        rcases mk_checkpoint_cases hA with ⟨e, he⟩ | ⟨c, h2, h3, _, h4, _, _, _⟩
        · rw [he] at hp; cases hp
        · rw [h2] at hp
          simp only [Except.ok.injEq, Out.handle.injEq] at hp
          subst hp
          obtain ⟨l, hl⟩ := run_handles (ops := ops) hA'
          refine ⟨c, c', ?_, h5, by omega⟩
          rw [hl, h3]; simp
      · exact absurd hp ((step_other (fl := fl) s h1).2.2.1 g)

/-- The cached checkpoint is the last one that was returned; checkpoints are numbered in the order
they are returned. -/
theorem run_last {ops : List (Op α)} : ∀ {s : Sys α} {st : List Nat}, Alone fl s st →
    s.b.checkpoint = s.handles.getLast? →
    (s.run fl ops).1.b.checkpoint = (s.run fl ops).1.handles.getLast? ∧
    (s.run fl ops).1.handles.length = s.handles.length + returned (s.run fl ops).2 ∧
    ((∀ c ∈ s.handles, c < s.cells.length) →
      ∀ c ∈ (s.run fl ops).1.handles, c < (s.run fl ops).1.cells.length) := by
  induction ops with
  | nil => intro s st _ h; exact ⟨h, rfl, fun h => h⟩
  | cons op ops ih =>
    intro s st hA h
    obtain ⟨st', hA', _⟩ := hA.step op
    simp only [Sys.run]
    by_cases h1 : op = .checkpoint
    · subst h1
      rcases mk_checkpoint_cases hA with ⟨e, he⟩ | ⟨c, h2, h3, h4, h5, _, ⟨l, h6⟩, _⟩
      · rw [he] at hA' ⊢
        obtain ⟨g1, g2, g3⟩ := ih hA' h
        exact ⟨g1, g2, g3⟩
      · obtain ⟨g1, g2, g3⟩ := ih hA' (by rw [h3, h4]; simp)
        refine ⟨g1, ?_, fun hh => g3 ?_⟩
        · rw [g2, h3, h2]
          simp [returned]; omega
        · intro x hx
          rw [h3] at hx
          simp only [List.mem_append, List.mem_singleton] at hx
          rcases hx with hx | rfl
          · rw [h6]; have := hh x hx; simp; omega
          · exact h5
    · obtain ⟨h2, h3, h4, h5⟩ := step_other (fl := fl) s h1
      obtain ⟨g1, g2, g3⟩ := ih hA' (by rw [h2, h3]; exact h)
      refine ⟨g1, ?_, fun hh => g3 ?_⟩
      · rw [g2, h2]
        have : ∀ (o : Except Err Out) l, (∀ g, o ≠ .ok (.handle g)) →
            returned (o :: l) = returned l := by
          intro o l ho
          rcases o with e | (i | g | _)
          · rfl
          · rfl
          · exact absurd rfl (ho g)
          · rfl
        rw [this _ _ h4]
      · rw [h2, h5]; exact hh

end Syntree
