import Verif.Proof.EditTree

/-! What `modify` does, for every set of removals. -/

namespace Syntree

variable {α : Type} {fl : Flavor}

open Forest

/-! ### The specification is a function -/

theorem Edited.ne_nil {S : List Nat} {now cut : Bool} {c : Nat} {F G : Forest (Lab α)}
    (h : Edited S now c F G cut) (hn : now = true) : G ≠ .nil := by
  cases h <;> simp_all

theorem Edited.kept {S : List Nat} {now cut : Bool} {c : Nat} {F G : Forest (Lab α)}
    (h : Edited S now c F G cut) (hF : F ≠ .nil) (hc : cut = false) : G ≠ .nil := by
  cases h with
  | nil => exact absurd rfl hF
  | last => simp at hc
  | skip _ h => exact h.ne_nil rfl
  | keep _ h => exact h.ne_nil rfl
  | leaf _ => simp
  | node _ _ _ => simp
  | again _ _ _ => simp

/-- Where it is cut off there is a removal. -/
theorem Edited.cut_mem {S : List Nat} {now cut : Bool} {c : Nat} {F G : Forest (Lab α)}
    (h : Edited S now c F G cut) (hc : cut = true) : c + G.size ∈ S := by
  induction h with
  | nil => simp at hc
  | skip _ _ ih => exact ih hc
  | last h => exact h
  | keep _ _ ih => exact ih hc
  | leaf _ ih =>
    have := ih hc
    simp only [Forest.size]
    rwa [show ∀ a b, a + (1 + 0 + b) = a + 1 + b by omega]
  | node _ _ _ _ ih =>
    have := ih hc
    simp only [Forest.size]
    rwa [show ∀ a b k, a + (1 + k + b) = a + 1 + k + b by omega]
  | again _ _ _ _ ih =>
    have := ih hc
    simp only [Forest.size]
    rwa [show ∀ a b k, a + (1 + k + b) = a + 1 + k + b by omega]

theorem Edited.unique {S : List Nat} {now cut : Bool} {c : Nat} {F G : Forest (Lab α)}
    (h : Edited S now c F G cut) : ∀ {G' : Forest (Lab α)} {cut' : Bool},
    Edited S now c F G' cut' → G' = G ∧ cut' = cut := by
  induction h with
  | nil => intro G' cut' h'; cases h'; exact ⟨rfl, rfl⟩
  | skip h _ ih =>
    intro G' cut' h'
    cases h' with
    | skip _ h' => exact ih h'
    | keep hn _ => exact absurd h hn
  | last h =>
    intro G' cut' h'
    cases h' with
    | last _ => exact ⟨rfl, rfl⟩
    | keep hn _ => exact absurd h hn
  | keep h _ ih =>
    intro G' cut' h'
    cases h' with
    | skip hn _ => exact absurd hn h
    | last hn => exact absurd hn h
    | keep _ h' => exact ih h'
  | leaf _ ih =>
    intro G' cut' h'
    cases h' with
    | leaf h' => obtain ⟨rfl, rfl⟩ := ih h'; exact ⟨rfl, rfl⟩
    | node hk _ _ => exact absurd rfl hk
    | again hk _ _ => exact absurd rfl hk
  | node hk _ _ ih1 ih2 =>
    intro G' cut' h'
    cases h' with
    | leaf _ => exact absurd rfl hk
    | node _ h1 h2 =>
      obtain ⟨rfl, _⟩ := ih1 h1
      obtain ⟨rfl, rfl⟩ := ih2 h2
      exact ⟨rfl, rfl⟩
    | again _ h1 _ => exact absurd (ih1 h1).2 (by simp)
  | again hk _ _ ih1 ih2 =>
    intro G' cut' h'
    cases h' with
    | leaf _ => exact absurd rfl hk
    | node _ h1 h2 => exact absurd (ih1 h1).2 (by simp)
    | again _ h1 h2 =>
      obtain ⟨rfl, _⟩ := ih1 h1
      obtain ⟨rfl, rfl⟩ := ih2 h2
      exact ⟨rfl, rfl⟩

theorem pending_mono (S : List Nat) {a b : Nat} (h : a ≤ b) : pending S b ≤ pending S a := by
  obtain ⟨d, rfl⟩ := Nat.le.dest h
  induction d with
  | zero => exact Nat.le_refl _
  | succ d ih => exact Nat.le_trans (pending_succ_le S _) (ih (by omega))

theorem Edited.exists_aux (S : List Nat) : ∀ (p : Nat) (F : Forest (Lab α)),
    (∀ c, pending S c ≤ p → ∃ G cut, Edited S false c F G cut) ∧
    (∀ c x k r, F = .cons x k r → pending S (c + 1) ≤ p → ∃ G cut, Edited S true c F G cut) := by
  intro p
  induction p using Nat.strongRecOn with
  | _ p ihp =>
    intro F
    induction F with
    | nil => exact ⟨fun c _ => ⟨_, _, .nil⟩, fun c x k r h => by simp at h⟩
    | cons x k r ihk ihr =>
      have B : ∀ c, pending S (c + 1) ≤ p → ∃ G cut, Edited S true c (.cons x k r) G cut := by
        intro c hc
        by_cases hk : k = .nil
        · subst hk
          obtain ⟨G, cut, h⟩ := ihr.1 (c + 1) hc
          exact ⟨_, _, .leaf h⟩
        · obtain ⟨K, cut, h⟩ := ihk.1 (c + 1) hc
          cases cut with
          | false =>
            obtain ⟨G, cut, h'⟩ := ihr.1 (c + 1 + K.size)
              (Nat.le_trans (pending_mono S (by omega)) hc)
            exact ⟨_, _, .node hk h h'⟩
          | true =>
            have hm := h.cut_mem rfl
            have h1 := pending_succ_lt hm
            have h2 : pending S (c + 1 + K.size) ≤ pending S (c + 1) := pending_mono S (by omega)
            obtain ⟨G, cut, h'⟩ := (ihp (pending S (c + 1 + K.size + 1)) (by omega)
              (.cons x k r)).2 (c + 1 + K.size) x k r rfl (Nat.le_refl _)
            exact ⟨_, _, .again hk h h'⟩
      refine ⟨fun c hc => ?_, fun c x' k' r' e => by
        simp only [Forest.cons.injEq] at e
        obtain ⟨rfl, rfl, rfl⟩ := e
        exact B c⟩
      have hc' : pending S (c + 1) ≤ p := Nat.le_trans (pending_succ_le S c) hc
      by_cases h : c ∈ S
      · cases hr : r with
        | nil => exact ⟨_, _, .last h⟩
        | cons y k' r' =>
          obtain ⟨G, cut, h'⟩ := ihr.2 c y k' r' hr hc'
          rw [hr] at h'
          exact ⟨_, _, .skip h h'⟩
      · obtain ⟨G, cut, h'⟩ := B c hc'
        exact ⟨_, _, .keep h h'⟩

theorem Edited.total (S : List Nat) (c : Nat) (F : Forest (Lab α)) :
    ∃ G cut, Edited S false c F G cut := (Edited.exists_aux S _ F).1 c (Nat.le_refl _)

/-! ### The machine follows it -/

theorem Room.trunc {n : Nest α} {i : Nat} {d : α} {K R : Forest (Lab α)}
    (h : Room fl n (.cons ⟨i, d, ⟨0, 0⟩⟩ K R)) : Room fl (n.addOpen d (Span.point n.cursor)) K := by
  by_cases hk : K = .nil
  · subst hk
    obtain ⟨h1, h2, h3⟩ := h
    simp only [Forest.size] at h1
    refine ⟨?_, ?_, h3⟩
    · show n.count + 1 + 0 ≤ _
      omega
    · show Lit.Addressable fl.ik (n.cursor + 0)
      exact h2.mono (by omega)
  · exact Room.kids (x := ⟨i, d, ⟨0, 0⟩⟩) hk h

/-- What is started by `now`. -/
def Starts (fl : Flavor) (now : Bool) (F : Forest (Lab α)) (ctx : ECtx α) (n : Nest α) (m : EM α) :
    Prop :=
  match now, F with
  | true, .cons x k r => EM.emit fl x k r ctx n = .ok m
  | true, .nil => False
  | false, F => m = EM.goto F ctx n

/-- How it ends. -/
def Ends (fl : Flavor) (S : List Nat) (cut : Bool) (m : EM α) (ctx : ECtx α) (n : Nest α) : Prop :=
  match cut with
  | false => Steps fl S m (EM.leave ctx n)
  | true => ∃ x k, Steps fl S m (.at x k .nil ctx n)

theorem Ends.before {S : List Nat} {cut : Bool} {m m' : EM α} {ctx : ECtx α} {n : Nest α}
    (h : Steps fl S m m') (h' : Ends fl S cut m' ctx n) : Ends fl S cut m ctx n := by
  cases cut with
  | false => exact h.trans h'
  | true => obtain ⟨x, k, h'⟩ := h'; exact ⟨x, k, h.trans h'⟩

theorem edited_steps {S : List Nat} {now cut : Bool} {c : Nat} {F G : Forest (Lab α)}
    (h : Edited S now c F G cut) : ∀ (ctx : ECtx α) (n : Nest α), n.count = c → Room fl n G →
    ∃ m, Starts fl now F ctx n m ∧ Ends fl S cut m ctx (n.copied fl.ik G) := by
  induction h with
  | nil =>
    intro ctx n _ _
    exact ⟨_, rfl, by rw [copied_nil]; exact Steps.refl _⟩
  | @skip c x y k k' r G cut hc h ih =>
    intro ctx n hn hr
    obtain ⟨m, h1, h2⟩ := ih ctx n hn hr
    refine ⟨_, rfl, Ends.before (Steps.one ?_) h2⟩
    have hnf : ¬ n.full fl = true := by
      cases G with
      | nil => exact absurd rfl (h.ne_nil rfl)
      | cons => exact hr.not_full
    unfold EM.step
    rw [if_neg hnf, if_pos (by rw [hn]; exact hc)]
    exact h1
  | @last c x k hc =>
    intro ctx n hn hr
    exact ⟨_, rfl, x, k, by rw [copied_nil]; exact Steps.refl _⟩
  | @keep c x k r G cut hc h ih =>
    intro ctx n hn hr
    obtain ⟨m, h1, h2⟩ := ih ctx n hn hr
    refine ⟨_, rfl, Ends.before (Steps.one ?_) h2⟩
    have hnf : ¬ n.full fl = true := by
      cases G with
      | nil => exact absurd rfl (h.ne_nil rfl)
      | cons => exact hr.not_full
    unfold EM.step
    rw [if_neg hnf, if_neg (by rw [hn]; exact hc)]
    exact h1
  | @leaf c x r G cut h ih =>
    intro ctx n hn hr
    obtain ⟨m, h1, h2⟩ := emit_steps (S := S) (R := r) (ctx := ctx) (Room.left (G := G) hr)
      (fun j _ => by simp only [Forest.size]; omega) (copy_steps .nil)
    obtain ⟨m', h3, h4⟩ := ih ctx (n.copied fl.ik (.cons x .nil .nil))
      (by rw [copied_count, hn]; rfl) (Room.right (F := .cons x .nil .nil) hr)
    rw [copied_append] at h4
    refine ⟨m, h1, Ends.before h2 ?_⟩
    rw [← show m' = EM.goto r ctx _ from h3]
    exact h4
  | @node c x k r K G cut hk h h' ih ih' =>
    intro ctx n hn hr
    have hK : K ≠ .nil := h.kept hk rfl
    refine ⟨_, emit_ctx hk ctx n, ?_⟩
    obtain ⟨m1, e1, s1⟩ := ih ((x, k, r) :: ctx) (n.addOpen x.data (Span.point n.cursor))
      (by show n.count + 1 = _; rw [hn]) (Room.kids hK hr)
    have e1 : m1 = EM.goto k ((x, k, r) :: ctx) _ := e1
    subst e1
    have s1 : Steps fl S _ (EM.leave ((x, k, r) :: ctx) _) := s1
    rw [goto_cons_nil, ← copied_inner _ _ _ hK] at s1
    refine Ends.before s1 ?_
    obtain ⟨m2, e2, s2⟩ := ih' ctx (n.copied fl.ik (.cons x K .nil))
      (by rw [copied_count, hn]; simp only [Forest.size]; omega)
      (Room.right (F := .cons x K .nil) hr)
    have e2 : m2 = EM.goto r ctx _ := e2
    subst e2
    rw [copied_append] at s2
    exact s2
  | @again c x k r K G cut hk h h' ih ih' =>
    intro ctx n hn hr
    refine ⟨_, emit_ctx hk ctx n, ?_⟩
    obtain ⟨m1, e1, s1⟩ := ih ((x, k, r) :: ctx) (n.addOpen x.data (Span.point n.cursor))
      (by show n.count + 1 = _; rw [hn]) hr.trunc
    have e1 : m1 = EM.goto k ((x, k, r) :: ctx) _ := e1
    subst e1
    obtain ⟨y, ky, s1⟩ := s1
    have hr2 : Room fl (n.copied fl.ik (.cons ⟨x.id, x.data, ⟨0, 0⟩⟩ K .nil)) G :=
      Room.right (F := .cons ⟨x.id, x.data, ⟨0, 0⟩⟩ K .nil) hr
    obtain ⟨m2, e2, s2⟩ := ih' ctx (n.copied fl.ik (.cons ⟨x.id, x.data, ⟨0, 0⟩⟩ K .nil))
      (by rw [copied_count, hn]; simp only [Forest.size]; omega) hr2
    rw [copied_append] at s2
    have hcnt : ((n.addOpen x.data (Span.point n.cursor)).copied fl.ik K).count = c + 1 + K.size := by
      rw [copied_count]
      show n.count + 1 + K.size = _
      rw [hn]
    refine Ends.before (s1.trans (Steps.one ?_)) s2
    unfold EM.step
    rw [if_neg, if_pos (by rw [hcnt]; exact h.cut_mem rfl)]
    · simp only
      rw [← copied_trunc]
      exact e2
    · rw [not_full_iff, hcnt]
      have h1 := hr.1
      have h2 : 1 ≤ G.size := by
        cases G with
        | nil => exact absurd rfl (h'.ne_nil rfl)
        | cons => simp only [Forest.size]; omega
      simp only [Forest.size] at h1
      omega

/-- The whole run, for every set of removals. -/
theorem machine_edited {c : ChangeSet} {F G : Forest (Lab α)} {cut : Bool}
    (h : Edited c.changes false 0 F G cut) :
    (Room fl (Nest.init : Nest α) G ∧ (cut = true → G.size < 2 ^ fl.width - 1) →
      c.machine fl F = .ok (Nest.init.copied fl.ik G)) ∧
    (¬ (Room fl (Nest.init : Nest α) G ∧ (cut = true → G.size < 2 ^ fl.width - 1)) →
      c.machine fl F = .error .overflow) := by
  have main : ∀ fl : Flavor, Room fl (Nest.init : Nest α) G →
      (cut = true → G.size < 2 ^ fl.width - 1) →
      c.machine fl F = .ok (Nest.init.copied fl.ik G) := by
    intro fl hr hc
    obtain ⟨m, e, s⟩ := edited_steps h [] (Nest.init : Nest α) rfl hr
    have e : m = EM.goto F [] Nest.init := e
    subst e
    apply machine_of_steps
    cases cut with
    | false => exact s
    | true =>
      obtain ⟨x, k, s⟩ := s
      refine s.trans (Steps.one ?_)
      unfold EM.step
      rw [if_neg, if_pos]
      · rw [copied_count]; exact h.cut_mem rfl
      · rw [not_full_iff, copied_count]
        have := hc rfl
        show 0 + G.size < _
        omega
  refine ⟨fun hr => main fl hr.1 hr.2, fun hr => ?_⟩
  cases hm : c.machine fl F with
  | error e => rw [machine_total c F hm]
  | ok n =>
    exfalso
    apply hr
    obtain ⟨w, hw, hw'⟩ := big_room fl G
    have h1 : c.machine (fl.big w) F = .ok n := big_run _ _ hm
    rw [main _ hw (fun _ => hw'), big_copied] at h1
    simp only [Except.ok.injEq] at h1
    have hi := machine_inv hm
    rw [← h1] at hi
    have hroom : Room fl (Nest.init : Nest α) G := ⟨hi.cap, hi.addr, fun _ => rfl⟩
    refine ⟨hroom, fun hc => ?_⟩
    subst hc
    obtain ⟨m, e, x, k, j, s⟩ := edited_steps h [] (Nest.init : Nest α) rfl hroom
    have e : m = EM.goto F [] Nest.init := e
    subst e
    unfold ChangeSet.machine at hm
    generalize (c.changes.length + 1) * (F.size + 1) + 1 = N at hm
    have s2 := s (N + 1)
    rw [show N + 1 + j = N + (1 + j) by omega, run_more N (1 + j) _ (by rw [hm]; simp), hm] at s2
    by_cases hf : (Nest.init.copied fl.ik G : Nest α).full fl = true
    · simp only [EM.run, EM.step, hf, if_true] at s2
      simp at s2
    · rw [not_full_iff, copied_count] at hf
      have : (0 : Nat) + G.size < 2 ^ fl.width - 1 := hf
      omega

theorem copy_edited_of {t : Tree α} {F G : Forest (Lab α)} {cut : Bool} {c : ChangeSet}
    (hs : (∀ e, c.machine fl F = .error e → c.modify fl t = .error e) ∧
      (∀ n, c.machine fl F = .ok n → ∃ t', c.modify fl t = .ok t' ∧ Represents true t' n.cur ∧
        t'.span = ⟨0, n.cursor⟩ ∧ t'.len = n.count))
    (hE : Edited c.changes false 0 F G cut) :
    IsCopyCut fl (c.modify fl t) G cut := by
  obtain ⟨s1, s2⟩ := hs
  have hm := machine_edited (fl := fl) hE
  rw [room_iff] at hm
  refine ⟨fun hf => ?_, fun hf => s1 _ (hm.2 hf)⟩
  obtain ⟨t', h1, h2, h3, h4⟩ := s2 _ (hm.1 hf)
  have e : (Nest.init.copied fl.ik G).cur = (G.relaid fl.ik).shorten := by
    show Forest.nil ++ _ = _
    rw [nil_append, Forest.relaid, laid_eq]; rfl
  rw [e] at h2
  refine ⟨t', h1, h2.listing, ?_, ?_⟩
  · rw [h3, textOf_eq]
    show (⟨0, 0 + _⟩ : Span) = _
    rw [Nat.zero_add]
  · rw [h4]
    show 0 + G.size = _
    omega

theorem copy_edited {t : Tree α} {F G : Forest (Lab α)} {cut : Bool} (h : Represents false t F)
    {c : ChangeSet} (hE : Edited c.changes false 0 F G cut) :
    IsCopyCut fl (c.modify fl t) G cut :=
  copy_edited_of (modify_spec (fl := fl) h c) hE

end Syntree
