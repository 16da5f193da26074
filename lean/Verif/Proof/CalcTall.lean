import Verif.Proof.CalcStack
import Verif.Proof.CalcEval

/-! How tall the trees of the calculator are, and how deep the evaluator recurses. -/

namespace Syntree.Calc

open Forest

/-- The levels of the nested list that have a level below them. -/
def tall {β : Type} : Forest β → Nat
  | .nil => 0
  | .cons _ .nil r => tall r
  | .cons _ (.cons y k k') r => max (1 + tall (.cons y k k')) (tall r)

/-- How many operations are nested in each other. -/
def nested : Forest (Syn × Span) → Nat
  | .nil => 0
  | .cons x k r => max (nested k + (if x.1 = .operation then 1 else 0)) (nested r)

theorem tall_append {β : Type} (F G : Forest β) : tall (F ++ G) = max (tall F) (tall G) := by
  induction F with
  | nil => simp [tall]
  | cons x k r _ ih =>
    cases k with
    | nil => simpa only [cons_append, tall] using ih
    | cons y k k' => simp only [cons_append, tall] at ih ⊢; rw [ih]; omega

theorem nested_append (F G : Forest (Syn × Span)) :
    nested (F ++ G) = max (nested F) (nested G) := by
  induction F with
  | nil => simp [nested]
  | cons x k r _ ih => simp only [cons_append, nested, ih]; omega

theorem tall_single {β : Type} (x : β) (k : Forest β) : tall (single x k) ≤ 1 + tall k := by
  cases k with
  | nil => simp [single, tall]
  | cons y k k' => simp only [single, tall]; omega

/-- The opening parentheses among some tokens. -/
def opensOf (u : List Token) : Nat := (u.map fun t => bit t.syn).sum

theorem opensOf_append (u v : List Token) : opensOf (u ++ v) = opensOf u + opensOf v := by
  simp [opensOf]

/-- Tokens have become a nested list without nesting. -/
def Ext0 (s s' : St) : Prop := ∃ G u, Ext s s' G u ∧ tall G = 0 ∧ nested G = 0

theorem Ext0.take (s : St) (h : s.toks ≠ []) : ∃ G, Ext s s.take G [s.head] ∧ tall G = 0 ∧
    nested G ≤ 1 ∧ (s.head.syn ≠ .operation → nested G = 0) :=
  ⟨_, Ext.take s h, rfl, by simp only [leaf, single, nested]; split <;> simp, by
    intro h; simp [nested, h]⟩

/-- No token is an operation. -/
def NoOps (ts : List Token) : Prop := ∀ t ∈ ts, t.syn ≠ .operation

theorem Ext0.skip (s : St) : Ext0 s s.skip := by
  have : ∀ (ts : List Token) (L : Lev Syn), Ext0 ⟨L, ts⟩ (skipWs L ts) := by
    intro ts
    induction ts with
    | nil => intro L; exact ⟨.nil, [], Ext.refl _, rfl, rfl⟩
    | cons t ts ih =>
      intro L
      unfold Calc.skipWs
      split
      · rename_i hw
        obtain ⟨G, u, h, h1, h2⟩ := ih (L.tok t.syn t.len)
        obtain ⟨G', h', h3, _, h4⟩ := Ext0.take ⟨L, t :: ts⟩ (by simp)
        have h4 := h4 (by simp [St.head, hw])
        exact ⟨_, _, h'.trans h, by rw [tall_append]; omega, by rw [nested_append]; omega⟩
      · exact ⟨.nil, [], Ext.refl _, rfl, rfl⟩
  exact this _ _

theorem Ext0.padv (L : Lev Syn) (ts : List Token) (hn : NoOps ts) : Ext0 ⟨L, ts⟩ (padv L ts) := by
  induction ts generalizing L with
  | nil => exact ⟨.nil, [], Ext.refl _, rfl, rfl⟩
  | cons t ts ih =>
    unfold Calc.padv
    split
    · exact ⟨.nil, [], Ext.refl _, rfl, rfl⟩
    · obtain ⟨G, u, h, h1, h2⟩ := ih (L.tok t.syn t.len) (fun x hx => hn x (by simp [hx]))
      obtain ⟨G', h', h3, _, h4⟩ := Ext0.take ⟨L, t :: ts⟩ (by simp)
      have h4 := h4 (hn t (by simp))
      exact ⟨_, _, h'.trans h, by rw [tall_append]; omega, by rw [nested_append]; omega⟩

theorem NoOps.ext {s s' : St} {G : Forest (Syn × Span)} {u : List Token} (h : NoOps s.toks)
    (he : Ext s s' G u) : NoOps s'.toks := fun t ht => h t (by rw [he.toks]; simp [ht])

theorem head_noOps {s : St} (h : NoOps s.toks) : s.head.syn ≠ .operation := by
  unfold St.head
  cases hs : s.toks with
  | nil => simp
  | cons t ts => exact h t (by simp [hs])

theorem bumped_flat {s : St} {d : Syn} (h : NoOps s.toks) (hd : d ≠ .operation) :
    tall (bumped s d) = 1 ∧ nested (bumped s d) = 0 := by
  have := head_noOps h
  simp [bumped, single, leaf, tall, nested, this, hd]

theorem opensOf_take1 {s : St} (h : s.head.syn ≠ .openParen) : opensOf (s.toks.take 1) = 0 := by
  unfold St.head at h
  cases hs : s.toks with
  | nil => rfl
  | cons t ts => rw [hs] at h; simp at h; simp [opensOf, bit, h]

/-- What `expr` adds is as tall as its parentheses and its operators allow. -/
theorem pexpr_tall (fuel : Nat) :
    (∀ (min : Nat) (s s' : St), NoOps s.toks → pexpr fuel min s = some s' → ∃ G u, Ext s s' G u ∧
      tall G ≤ 4 * opensOf u + rank min ∧ nested G + 1 ≤ 3 * opensOf u + rank min) ∧
    (∀ (min : Nat) (o o' : Bool) (s s' : St), NoOps s.toks → ploop fuel min o s = some (o', s') →
      ∃ G u, Ext s s' G u ∧ tall G ≤ 4 * opensOf u + (rank min - 1) ∧
      nested G ≤ 3 * opensOf u + (rank min - 2) ∧ (o' = true → o = true ∨ 2 ≤ rank min)) := by
  induction fuel with
  | zero => exact ⟨by simp [pexpr], by simp [ploop]⟩
  | succ fuel ih =>
    obtain ⟨ih1, ih2⟩ := ih
    have fin : ∀ {s s1 s' : St} {G : Forest (Syn × Span)} {u : List Token} {min : Nat},
        NoOps s.toks → Ext s s1 G u → tall G ≤ 4 * opensOf u + 1 → nested G ≤ 3 * opensOf u →
        finish s.width (ploop fuel min false s1) = some s' →
        ∃ G u, Ext s s' G u ∧ tall G ≤ 4 * opensOf u + rank min ∧
          nested G + 1 ≤ 3 * opensOf u + rank min := by
      intro s s1 s' G u min hn h ht hs hf
      obtain ⟨o, s2, e, rfl⟩ := finish_some hf
      obtain ⟨G2, u2, h2, t2, n2, r2⟩ := ih2 _ _ _ _ _ (hn.ext h) e
      have h3 := h.trans h2
      have hr := rank_pos min
      cases o with
      | false =>
        refine ⟨_, _, h3, ?_, ?_⟩
        · rw [tall_append, opensOf_append]; omega
        · rw [nested_append, opensOf_append]; omega
      | true =>
        have r2 : 2 ≤ rank min := by simpa using r2 rfl
        refine ⟨_, _, h3.wrap .operation, ?_, ?_⟩
        · refine Nat.le_trans (tall_single _ _) ?_
          rw [tall_append, opensOf_append]; omega
        · simp only [wrapped, single, nested, if_true]
          rw [nested_append, opensOf_append]; omega
    constructor
    · intro min s s' hn h
      obtain ⟨G0, u0, h0, t0, n0⟩ := Ext0.skip s
      have hn0 := hn.ext h0
      have hr := rank_pos min
      have lift : (∃ G u, Ext s.skip s' G u ∧ tall G ≤ 4 * opensOf u + rank min ∧
          nested G + 1 ≤ 3 * opensOf u + rank min) → ∃ G u, Ext s s' G u ∧
          tall G ≤ 4 * opensOf u + rank min ∧ nested G + 1 ≤ 3 * opensOf u + rank min := by
        rintro ⟨G, u, h, a, b⟩
        refine ⟨_, _, h0.trans h, ?_, ?_⟩
        · rw [tall_append, opensOf_append]; omega
        · rw [nested_append, opensOf_append]; omega
      apply lift
      rw [pexpr] at h
      split at h
      · rename_i hk
        obtain ⟨G1, t1, a1, _, b1⟩ := Ext0.take s.skip (head_toks hk (by simp))
        have b1 := b1 (by simp [hk])
        have o1 : opensOf [s.skip.head] = 1 := by simp [opensOf, bit, hk]
        split at h
        · simp at h
        · rename_i s2 e2
          have hn1 := hn0.ext t1
          obtain ⟨G2, u2, h2, a2, b2⟩ := ih1 _ _ _ hn1 e2
          have h3 := t1.trans (h2.wrap .group)
          have hn3 := hn1.ext (h2.wrap .group)
          obtain ⟨G4, u4, h4, a4, b4⟩ := Ext0.skip (s2.wrap s.skip.take.width .group)
          have h5 := h3.trans h4
          have hn5 := hn3.ext h4
          have a3 := tall_single (Syn.group, (⟨s.skip.take.lev.pos, s2.lev.pos⟩ : Span)) G2
          have b3 : nested (wrapped G2 .group s.skip.take.lev.pos s2.lev.pos) = nested G2 := by
            simp [wrapped, single, nested]
          have hr0 : rank 0 = 4 := rfl
          rw [hr0] at a2 b2
          change tall (wrapped G2 .group s.skip.take.lev.pos s2.lev.pos) ≤ _ at a3
          split at h
          · rename_i hc
            obtain ⟨G6, t6, a6, _, b6⟩ := Ext0.take _ (head_toks hc (by simp))
            have b6 := b6 (by simp [hc])
            refine fin hn0 (h5.trans t6) ?_ ?_ h
            · simp only [tall_append, opensOf_append, o1]; omega
            · simp only [nested_append, opensOf_append, o1]; omega
          · simp only [Option.some.injEq] at h
            subst h
            obtain ⟨a6, b6⟩ := bumped_flat (d := .error) hn5 (by simp)
            refine ⟨_, _, h5.trans (Ext.bump _ _), ?_, ?_⟩
            · simp only [tall_append, opensOf_append, o1]; omega
            · simp only [nested_append, opensOf_append, o1]; omega
      · split at h
        · obtain ⟨a6, b6⟩ := bumped_flat (d := .number) hn0 (by simp)
          exact fin hn0 (Ext.bump s.skip .number) (by omega) (by omega) h
        · simp only [Option.some.injEq] at h
          subst h
          obtain ⟨a6, b6⟩ := bumped_flat (d := .error) hn0 (by simp)
          exact ⟨_, _, Ext.bump _ _, by omega, by omega⟩
    · intro min o o' s s' hn h
      obtain ⟨G0, u0, h0, t0, n0⟩ := Ext0.skip s
      have hn0 := hn.ext h0
      rw [ploop] at h
      split at h
      · simp only [Option.some.injEq, Prod.mk.injEq] at h
        rw [← h.2]; exact ⟨_, _, h0, by omega, by omega, fun e => Or.inl (h.1.trans e)⟩
      · rename_i left right hop
        split at h
        · rename_i hm
          split at h
          · simp at h
          · rename_i s2 e2
            have hr := rank_op hop hm
            have hr1 := rank_pos right
            obtain ⟨a1, b1⟩ := bumped_flat (d := .operator) hn0 (by simp)
            have hn1 := hn0.ext (Ext.bump s.skip .operator)
            obtain ⟨G2, u2, h2, a2, b2⟩ := ih1 _ _ _ hn1 e2
            obtain ⟨G3, u3, h3, a3, b3, _⟩ := ih2 _ _ _ _ _ (hn1.ext h2) h
            refine ⟨_, _, ((h0.trans (Ext.bump _ _)).trans h2).trans h3, ?_, ?_, ?_⟩
            · simp only [tall_append, opensOf_append]; omega
            · simp only [nested_append, opensOf_append]; omega
            · intro _; right; omega
        · simp only [Option.some.injEq, Prod.mk.injEq] at h
          rw [← h.2]; exact ⟨_, _, h0, by omega, by omega, fun e => Or.inl (h.1.trans e)⟩

theorem proot_tall {F : Nat} : ∀ (fuel : Nat) (s s' : St), NoOps s.toks →
    proot F fuel s = some s' → ∃ G u, Ext s s' G u ∧ tall G ≤ 4 * opensOf u + 4 ∧
      nested G ≤ 3 * opensOf u + 3 := by
  intro fuel
  induction fuel with
  | zero => intro s s' _ h; simp [proot] at h
  | succ fuel ih =>
    intro s s' hn h
    rw [proot] at h
    split at h
    · simp at h
    · rename_i s1 e1
      obtain ⟨G1, u1, h1, a1, b1⟩ := (pexpr_tall F).1 _ _ _ hn e1
      have hr0 : rank 0 = 4 := rfl
      rw [hr0] at a1 b1
      obtain ⟨G2, u2, h2, a2, b2⟩ := Ext0.skip s1
      have h12 := h1.trans h2
      split at h
      · simp only [Option.some.injEq] at h
        subst h
        refine ⟨_, _, h12, ?_, ?_⟩
        · simp only [tall_append, opensOf_append]; omega
        · simp only [nested_append, opensOf_append]; omega
      · obtain ⟨G3, u3, h3, a3, b3⟩ := Ext0.padv s1.skip.lev s1.skip.toks (hn.ext h12)
        have h4 := h12.trans (Ext.wrap (s := s1.skip) h3 .error)
        obtain ⟨G5, u5, h5, a5, b5⟩ := ih _ _ (hn.ext h4) h
        have a4 := tall_single (Syn.error,
          (⟨s1.skip.lev.pos, (padv s1.skip.lev s1.skip.toks).lev.pos⟩ : Span)) G3
        change tall (wrapped G3 .error s1.skip.lev.pos _) ≤ _ at a4
        have b4 : nested (wrapped G3 .error s1.skip.lev.pos
            (padv s1.skip.lev s1.skip.toks).lev.pos) = nested G3 := by
          simp [wrapped, single, nested]
        refine ⟨_, _, h4.trans h5, ?_, ?_⟩
        · simp only [tall_append, opensOf_append]; omega
        · simp only [nested_append, opensOf_append]; omega

theorem symbol_open {c : Char} {k : Syn} (h : symbol c = some k) :
    k ≠ .operation ∧ (k = .openParen → c = '(') := by
  unfold symbol at h
  split at h <;> simp at h <;> subst h <;> simp

/-- The parentheses among the tokens are characters of the text. -/
theorem Lexed.opens {cs : Text} {ps : List (Syn × Text)} (h : Lexed cs ps) :
    opensOf (ps.map tokenOf) ≤ cs.count '(' ∧ NoOps (ps.map tokenOf) := by
  have other : ∀ {k : Syn} {run rest : Text} {ps : List (Syn × Text)}, k ≠ .openParen →
      k ≠ .operation → opensOf (ps.map tokenOf) ≤ rest.count '(' ∧ NoOps (ps.map tokenOf) →
      opensOf (((k, run) :: ps).map tokenOf) ≤ (run ++ rest).count '(' ∧
        NoOps (((k, run) :: ps).map tokenOf) := by
    intro k run rest ps h1 h2 ih
    refine ⟨?_, ?_⟩
    · have := ih.1
      simp only [opensOf, List.map_cons, List.sum_cons, tokenOf, bit, h1, if_false,
        List.count_append] at this ⊢
      omega
    · intro t ht
      rw [List.map_cons] at ht
      rcases List.mem_cons.1 ht with rfl | ht
      · exact h2
      · exact ih.2 t ht
  induction h with
  | nil => exact ⟨by simp [opensOf], by simp [NoOps]⟩
  | symbol hs _ ih =>
    obtain ⟨h1, h2⟩ := symbol_open hs
    rename_i c k rest ps _
    by_cases hk : k = .openParen
    · have hc := h2 hk
      subst hk; subst hc
      refine ⟨?_, ?_⟩
      · have := ih.1
        simp only [opensOf, List.map_cons, List.sum_cons, tokenOf, bit, if_true,
          List.count_cons_self] at this ⊢
        omega
      · intro t ht
        rw [List.map_cons] at ht
        rcases List.mem_cons.1 ht with rfl | ht
        · exact h1
        · exact ih.2 t ht
    · exact other (run := [c]) hk h1 ih
  | whitespace _ _ _ ih => exact other (by simp) (by simp) ih
  | number _ _ _ ih => exact other (by simp) (by simp) ih
  | error _ _ _ _ ih => exact other (by simp) (by simp) ih

/-! ## Paths -/

theorem tall_pos {β : Type} {left right kids : Forest β} {x : β} {F : Forest β}
    (h : F = left ++ .cons x kids right) (hk : kids ≠ .nil) : 1 + tall kids ≤ tall F := by
  subst h
  rw [tall_append]
  cases kids with
  | nil => exact absurd rfl hk
  | cons y k k' => simp only [tall]; omega

/-- A node has no more ancestors than the nested list is tall. -/
theorem loc_tall {β : Type} {F : Forest β} {anc : List β} {left kids right : Forest β} {x : β}
    (h : Loc F anc left x kids right) : anc.length + tall (.cons x kids right) ≤ tall F := by
  induction h with
  | root e => rw [e, tall_append]; simp only [List.length_nil]; omega
  | child _ e ih =>
    rename_i anc l p k r left x kids right hl
    have : 1 + tall k ≤ tall (.cons p k r) := tall_pos (left := .nil) rfl (by
      rw [e]; cases left <;> simp)
    have h2 : tall (.cons x kids right) ≤ tall k := by rw [e, tall_append]; omega
    simp only [List.length_cons]
    omega

/-! ## The evaluator -/

theorem nested_branches {F : Forest (Syn × Span)} : ∀ p ∈ branches F,
    nested (.cons p.1 p.2 .nil) ≤ nested F := by
  intro p hp
  obtain ⟨l, r, rfl⟩ := branches_loc p hp
  rw [nested_append]
  simp only [nested]
  omega

/-- How deep `eval_node` recurses for a node. -/
def frames (x : Lab Syn) (kids : Forest (Lab Syn)) : Nat :=
  nested (.cons (x.data, x.span) kids.content .nil) + 1

theorem frames_branches {F : Forest (Lab Syn)} : ∀ p ∈ branches F,
    frames p.1 p.2 ≤ nested F.content + 1 := by
  intro p hp
  have : contentOf p ∈ branches F.content := by
    rw [branches_content]; exact List.mem_map.2 ⟨p, hp, rfl⟩
  have := nested_branches _ this
  simp only [contentOf] at this
  unfold frames
  omega

section tree
variable {g : Bool} {t : Tree Syn} {F : Forest (Lab Syn)}

/-- With enough frames the evaluator does what it does without a limit. -/
theorem evalNode_enough (h : Represents g t F) (source : Text) (fuel : Nat) :
    (∀ (d : Nat) {anc : List (Lab Syn)} {left kids right : Forest (Lab Syn)} {x : Lab Syn},
      Loc F anc left x kids right → frames x kids ≤ d →
      evalNodeIn t.nodes source fuel d x.id = evalNode t.nodes source fuel x.id) ∧
    (∀ (d : Nat) (span : Span) (it : Children) (rs : List (Lab Syn × Forest (Lab Syn))) (base : Int),
      (∀ p ∈ rs, (∃ anc left right, Loc F anc left p.1 p.2 right) ∧ frames p.1 p.2 ≤ d) →
      Yields (SkipTokens.next t.nodes (Children.next t.nodes)) it (rs.map (·.1.id)) →
      evalOpsIn t.nodes source fuel d span it base = evalOps t.nodes source fuel span it base) := by
  induction fuel with
  | zero =>
    refine ⟨fun d _ _ _ _ _ _ _ => ?_, fun _ _ _ _ _ _ _ => ?_⟩
    · unfold evalNodeIn evalNode; rfl
    · unfold evalOpsIn evalOps; rfl
  | succ fuel ih =>
    obtain ⟨ihn, iho⟩ := ih
    refine ⟨?_, ?_⟩
    · intro d anc left kids right x hl hd
      obtain ⟨_, hv, hs, hc, _⟩ := h.node_get hl
      obtain ⟨d, rfl⟩ : ∃ e, d = e + 1 := ⟨d - 1, by unfold frames at hd; omega⟩
      rw [evalNodeIn, evalNode]
      simp only [hv, hs]
      cases hx : x.data with
      | group =>
        simp only [h.node_first hl]
        cases kids with
        | nil => rfl
        | cons y k r =>
          refine ihn (d + 1) (Loc.child hl (left := .nil) rfl) ?_
          unfold frames at hd ⊢
          simp only [hx, content, Forest.map, nested] at hd ⊢
          omega
      | operation =>
        simp only
        have hy := skip_children h hl
        have hk : nested kids.content + 1 ≤ d := by
          unfold frames at hd
          simp only [hx, nested, if_true] at hd
          omega
        cases hb : branches kids with
        | nil =>
          rw [hb] at hy
          cases hy with
          | done e => simp only [e]
        | cons p rs =>
          rw [hb] at hy
          have hloc : ∀ q ∈ p :: rs, (∃ anc left right, Loc F anc left q.1 q.2 right) ∧
              frames q.1 q.2 ≤ d := by
            intro q hq
            obtain ⟨l, r, e⟩ := branches_loc q (hb ▸ hq)
            have := frames_branches q (hb ▸ hq)
            exact ⟨⟨_, l, r, Loc.child hl e⟩, by omega⟩
          cases hy with
          | item e hy =>
            obtain ⟨⟨a, l, r, hp⟩, hq⟩ := hloc p (by simp)
            simp only [e, ihn d hp hq]
            cases evalNode t.nodes source fuel p.1.id with
            | none => rfl
            | some v =>
              cases v with
              | error e => rfl
              | ok b => exact iho _ _ _ _ _ (fun q hq => hloc q (by simp [hq])) hy
      | _ => rfl
    · intro d span it rs base hloc hy
      rw [evalOpsIn, evalOps]
      cases rs with
      | nil =>
        cases hy with
        | done e => simp only [e]
      | cons p rs =>
        cases hy with
        | item e hy =>
          simp only [e]
          cases nodeFirst t.nodes p.1.id with
          | none => rfl
          | some o =>
            simp only
            cases nodeValue t.nodes o with
            | none => rfl
            | some what =>
              cases nodeSpan t.nodes o with
              | none => rfl
              | some opSpan =>
                simp only
                cases table what with
                | none => rfl
                | some c =>
                  obtain ⟨calculate, error⟩ := c
                  simp only
                  cases rs with
                  | nil =>
                    cases hy with
                    | done e => simp only [e]
                  | cons q rs =>
                    cases hy with
                    | item e hy =>
                      obtain ⟨⟨a', l', r', hq⟩, hd⟩ := hloc q (by simp)
                      simp only [e, ihn d hq hd]
                      cases evalNode t.nodes source fuel q.1.id with
                      | none => rfl
                      | some v =>
                        cases v with
                        | error e => rfl
                        | ok b =>
                          simp only
                          cases calculate base b with
                          | none => rfl
                          | some n => exact iho _ _ _ _ _ (fun z hz => hloc z (by simp [hz])) hy

theorem eval_enough (h : Represents g t F) (source : Text) {d : Nat} (hd : nested F.content + 1 ≤ d) :
    evalIn d t source = eval t source := by
  unfold evalIn eval
  have hy := skip_roots h
  have hlen : ((branches F).map (·.1.id)).length < t.nodes.length + 1 := by
    have h1 : ∀ G : Forest (Lab Syn), (branches G).length ≤ G.size := by
      intro G
      induction G with
      | nil => simp [branches]
      | cons x k r _ ih =>
        cases k with
        | nil => simp only [branches, Forest.size]; omega
        | cons y k k' => simp only [branches, Forest.size, List.length_cons]; omega
    have := h1 F
    have := h.size
    simp only [List.length_map]
    omega
  rw [forLoop_of_yields hy _ hlen, forLoop_of_yields hy _ hlen, List.map_map, List.map_map]
  congr 1
  apply List.map_congr_left
  intro p hp
  obtain ⟨l, r, e⟩ := branches_loc p hp
  have := frames_branches p hp
  exact (evalNode_enough h source _).1 d (Loc.root e) (by omega)

end tree

end Syntree.Calc
