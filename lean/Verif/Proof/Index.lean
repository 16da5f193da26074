import Verif.Proof.Cover
import Verif.Spec.Range
import Verif.Model.Search

/-! The index of a tree, and range queries. -/

namespace Syntree

variable {α : Type} {fl : Flavor}

open Forest

/-! ## What is pushed to the index -/

theorem modifyOpt_indexes (t : Tree α) (i : Option Nat) (f : Links α → Links α) :
    (t.modifyOpt i f).indexes = t.indexes := by cases i <;> rfl

theorem insert_indexes (b : Builder α) (d : α) (sp : Span) :
    (b.insert fl d sp).1.tree.indexes = b.tree.indexes ∧ (b.insert fl d sp).1.cursor = b.cursor := by
  unfold Builder.insert
  split
  · exact ⟨rfl, rfl⟩
  · simp only [modifyOpt_indexes]
    split <;> exact ⟨rfl, trivial⟩

theorem openWith_indexes (b : Builder α) (d : α) (sp : Span) :
    (b.openWith fl d sp).1.tree.indexes = b.tree.indexes := by
  unfold Builder.openWith
  have := insert_indexes (fl := fl) b d sp
  split <;> rename_i h <;> rw [h] at this <;> exact this.1

theorem close_indexes (b : Builder α) : b.close.1.tree.indexes = b.tree.indexes := by
  unfold Builder.close
  cases b.parent with
  | none => rfl
  | some head =>
    simp only
    cases b.tree.nodes[head]? with
    | none => rfl
    | some links =>
      simp only
      cases links.parent with
      | none => rfl
      | some id =>
        simp only
        split <;> rfl

theorem mkCheckpoint_indexes (cells : Cells) (b : Builder α) :
    (b.mkCheckpoint fl cells).2.1.tree = b.tree := by
  unfold Builder.mkCheckpoint
  cases ptrNew fl.width b.tree.len with
  | none => rfl
  | some node =>
    simp only
    cases b.checkpoint with
    | none => rfl
    | some c =>
      simp only
      cases cells[c]? with
      | none => rfl
      | some cell => simp only; split <;> rfl

theorem closeAtCore_indexes (cells : Cells) (b : Builder α) (c : Nat) (d : α) (e : Option Span) :
    (b.closeAtCore fl cells c d e).2.1.tree.indexes = b.tree.indexes := by
  unfold Builder.closeAtCore
  cases cells[c]? with
  | none => rfl
  | some cell =>
    simp only
    split
    · rfl
    · cases ptrNew fl.width b.tree.len with
      | none => rfl
      | some newId =>
        simp only
        cases b.tree.nodes[cell.node]? with
        | none =>
          simp only
          have h := insert_indexes (fl := fl) b d (e.getD (Span.point b.cursor))
          rcases hh : b.insert fl d (e.getD (Span.point b.cursor)) with ⟨b', _ | id⟩
          · rw [hh] at h; exact h.1
          · rw [hh] at h
            simp only
            split
            · exact h.1
            · exact h.1
        | some links =>
          simp only
          rcases reparent newId cell.node links b.tree.nodes with ⟨nodes, _ | ⟨last, span⟩⟩
          · rfl
          · simp only [Tree.relink, Tree.push, modifyOpt_indexes]

/-- What one call adds to the index. -/
def pushed (fl : Flavor) (op : Op α) (o : Except Err Out) (cursor : Nat) : List TreeIndex :=
  match op, o with
  | .token _ len, .ok (.id i) => if fl.keepIdx && ! fl.ik.lenIsEmpty len then [⟨cursor, i⟩] else []
  | .tokenWith _ sp, .ok (.id i) => if fl.keepIdx then [⟨sp.start, i⟩] else []
  | _, _ => []

theorem token_indexes (b : Builder α) (d : α) (len : Nat) :
    (b.token fl d len).1.tree.indexes = b.tree.indexes ++
      pushed fl (.token d len) ((b.token fl d len).2.map .id) (b.token fl d len).1.cursor := by
  unfold Builder.token
  cases he : fl.ik.lenIsEmpty len with
  | true =>
    simp only [if_true]
    have h := insert_indexes (fl := fl) b d (Span.new b.cursor b.cursor)
    rcases hh : b.insert fl d (Span.new b.cursor b.cursor) with ⟨b', _ | id⟩ <;> rw [hh] at h <;>
      simp only at h <;> simp [pushed, he, Except.map, h.1]
  | false =>
    simp only [Bool.false_eq_true, if_false]
    cases fl.ik.checkedAddLen b.cursor len with
    | none => simp [pushed, Except.map]
    | some c =>
      simp only
      split
      · rename_i b' e heq
        have h := congrArg (fun r => r.1.tree.indexes) heq
        simp only [(insert_indexes _ _ _).1] at h
        simp [pushed, Except.map, ← h]
      · rename_i b' id heq
        have h := congrArg (fun r => r.1.tree.indexes) heq
        simp only [(insert_indexes _ _ _).1] at h
        simp only [pushed, Except.map, he, Tree.pushIndex]
        cases fl.keepIdx <;> simp [← h]

theorem tokenWith_indexes (b : Builder α) (d : α) (sp : Span) (c : Nat) :
    (b.tokenWith fl d sp).1.tree.indexes = b.tree.indexes ++
      pushed fl (.tokenWith d sp) ((b.tokenWith fl d sp).2.map .id) c := by
  unfold Builder.tokenWith
  have h := insert_indexes (fl := fl) b d sp
  rcases hh : b.insert fl d sp with ⟨b', _ | id⟩ <;> rw [hh] at h <;> simp only at h
  · simp [pushed, Except.map, h.1]
  · simp only [pushed, Except.map, modifyOpt_indexes, Tree.pushIndex]
    cases fl.keepIdx <;> simp [h.1]

theorem Sys.step_indexes (s : Sys α) (op : Op α) :
    (s.step fl op).1.b.tree.indexes = s.b.tree.indexes ++
      pushed fl op (s.step fl op).2 (s.step fl op).1.b.cursor := by
  cases op with
  | «open» d => simp [Sys.step, Sys.lift, Builder.open, openWith_indexes, pushed]
  | openWith d sp => simp [Sys.step, Sys.lift, openWith_indexes, pushed]
  | close => simp [Sys.step, Sys.lift, close_indexes, pushed]
  | token d len => simpa [Sys.step, Sys.lift] using token_indexes s.b d len
  | tokenEmpty d =>
    have h := token_indexes (fl := fl) s.b d 0
    have e : ∀ o c, pushed fl (.token d 0) o c = [] := by
      intro o c
      unfold pushed
      split
      · rename_i h1; cases h1; simp [lenIsEmpty_zero]
      · rename_i h1; cases h1
      · rfl
    rw [e] at h
    simpa [Sys.step, Sys.lift, Builder.tokenEmpty, pushed] using h
  | tokenWith d sp => simpa [Sys.step, Sys.lift] using tokenWith_indexes s.b d sp _
  | checkpoint =>
    simp only [Sys.step]
    have h := mkCheckpoint_indexes (fl := fl) s.cells s.b
    rcases hh : s.b.mkCheckpoint fl s.cells with ⟨cells, b, _ | c⟩ <;> rw [hh] at h <;>
      simp only at h <;> simp [pushed, h]
  | closeAt k d =>
    simp only [Sys.step]
    cases s.handles[k]? with
    | none => simp [pushed]
    | some c => simp [pushed, Builder.closeAt, closeAtCore_indexes]
  | closeAtWith k d sp =>
    simp only [Sys.step]
    cases s.handles[k]? with
    | none => simp [pushed]
    | some c => simp [pushed, Builder.closeAtWith, closeAtCore_indexes]
  | setCursor i => simp [Sys.step, Builder.setCursor, pushed]

/-! ## The index of a cursor driven history -/

/-- The entries for the given calls, if the text starts at `pos` and the first id is `id`. -/
def ixFrom (fl : Flavor) : (pos id : Nat) → List (Op α) → List TreeIndex
  | _, _, [] => []
  | pos, id, op :: ops =>
    (if op.len fl = 0 then [] else [⟨pos + op.len fl, id⟩]) ++ ixFrom fl (pos + op.len fl) (id + 1) ops

theorem ixFrom_append (pos id : Nat) (a b : List (Op α)) :
    ixFrom fl pos id (a ++ b) = ixFrom fl pos id a ++
      ixFrom fl (pos + textLen fl a) (id + a.length) b := by
  induction a generalizing pos id with
  | nil => simp [ixFrom, textLen]
  | cons op a ih =>
    simp only [List.cons_append, ixFrom, ih, List.append_assoc, textLen, List.map_cons,
      List.sum_cons, List.length_cons]
    have e1 : pos + op.len fl + (a.map (Op.len fl)).sum = pos + (op.len fl + (a.map (Op.len fl)).sum) := by
      omega
    have e2 : id + 1 + a.length = id + (a.length + 1) := by omega
    rw [e1, e2]

theorem len_token {d : α} {len : Nat} : (Op.token d len).len fl = 0 ↔ fl.ik.lenIsEmpty len = true := by
  unfold Op.len
  cases hk : fl.ik with
  | bits w => simp [IndexKind.lenIsEmpty]; omega
  | empty => simp [IndexKind.lenIsEmpty]

/-- After a history without explicit spans, the index is that of the calls that made nodes. -/
theorem indexes_of_run (hk : fl.keepIdx = true) {ops : List (Op α)} {n : Nest α}
    {os : List (Except Err Out)} (h : Nest.init.run fl ops = some (n, os))
    (hc : ∀ op ∈ ops, op.cursorDriven = true) (hsp : Spare fl n.count os) :
    (Sys.init.run fl ops).1.b.tree.indexes = ixFrom fl 0 0 (made ops os) := by
  refine Spare.induct (n0 := Nest.init) (fl := fl)
    (P := fun ops n os => LenInv fl ops n os ∧
      (Sys.init.run fl ops).1.b.tree.indexes = ixFrom fl 0 0 (made ops os)) ?_ ?_ ops n os h hc hsp |>.2
  · exact ⟨⟨SpanInv.init, rfl, by simp [Nest.init, Forest.leaves], by simp [Nest.init],
      by simp [Nest.init]⟩, rfl⟩
  · intro ops n os op n' o hop hrun ⟨hl, hi⟩ hst hsp
    have hl' := hl.did (LogInv.of_run hrun) (Nest.run_length hrun) hop (Nest.step_did hst) hsp
    refine ⟨hl', ?_⟩
    obtain ⟨s, es, r⟩ := (Rel.init false).run (g' := false) fl ops hrun (by simp)
    have hrun' : Nest.init.run fl (ops ++ [op]) = some (n', os ++ [o]) := by
      rw [Nest.run_append, hrun]; simp only [Nest.run, hst]
    obtain ⟨s', es', r'⟩ := (Rel.init false).run (g' := false) fl _ hrun' (by simp)
    have e : s' = (s.step fl op).1 ∧ o = (s.step fl op).2 := by
      rw [Sys.run_append, es] at es'
      simp only [Sys.run, Prod.mk.injEq] at es'
      refine ⟨es'.1.symm, ?_⟩
      have := List.append_cancel_left es'.2
      simpa using this.symm
    have hx := Sys.step_indexes (fl := fl) s op
    rw [← e.1, ← e.2] at hx
    rw [es']
    rw [es] at hi
    simp only at hi ⊢
    rw [hx, hi, made_snoc (Nest.run_length hrun), r'.cursor, hl'.cursor,
      made_snoc (Nest.run_length hrun)]
    cases ho : idOf o with
    | none =>
      simp only [Option.isSome_none, Bool.false_eq_true, if_false, List.append_nil]
      unfold pushed
      split
      · simp [idOf] at ho
      · simp [idOf] at ho
      · simp
    | some i =>
      have hid : i = (made ops os).length := by
        rcases (Nest.step_did hst).count with ⟨h1, _⟩ | ⟨h1, _⟩
        · rw [h1] at ho; simp at ho
        · rw [(LogInv.of_run hrun).len]; rw [h1] at ho; exact (Option.some.inj ho).symm
      have hoi : o = .ok (.id i) := by
        unfold idOf at ho
        split at ho
        · simp only [Option.some.injEq] at ho; rw [ho]
        · simp at ho
      simp only [Option.isSome_some, if_true]
      rw [ixFrom_append, textLen_append, hoi]
      congr 1
      simp only [ixFrom, List.append_nil, Nat.zero_add]
      have hz : ∀ op : Op α, op.cursorDriven = true → (∀ d len, op ≠ .token d len) →
          op.len fl = 0 ∧ pushed fl op (.ok (.id i)) (textLen fl (made ops os) + textLen fl [op]) = [] := by
        intro op h1 h2
        cases op <;> simp_all [Op.len, pushed, Op.cursorDriven]
      by_cases ht : ∃ d len, op = .token d len
      · obtain ⟨d, len, rfl⟩ := ht
        cases he : fl.ik.lenIsEmpty len with
        | true =>
          rw [if_pos (len_token.2 he)]
          simp [pushed, he]
        | false =>
          rw [if_neg (by rw [len_token]; simp [he])]
          simp [pushed, he, hk, textLen, hid]
      · obtain ⟨h1, h2⟩ := hz op hop (fun d len e => ht ⟨d, len, e⟩)
        rw [h2, if_pos h1]

/-! ## Searching -/

theorem ixFrom_gt (pos id : Nat) (calls : List (Op α)) :
    ∀ x ∈ ixFrom fl pos id calls, pos < x.index := by
  induction calls generalizing pos id with
  | nil => simp [ixFrom]
  | cons op calls ih =>
    intro x hx
    simp only [ixFrom, List.mem_append] at hx
    rcases hx with hx | hx
    · split at hx
      · simp at hx
      · simp only [List.mem_singleton] at hx; subst hx; simp only; omega
    · have := ih _ _ x hx; omega

theorem ixFrom_sorted (pos id : Nat) (calls : List (Op α)) :
    ((ixFrom fl pos id calls).map (·.index)).Pairwise (· < ·) := by
  induction calls generalizing pos id with
  | nil => simp [ixFrom]
  | cons op calls ih =>
    simp only [ixFrom, List.map_append, List.pairwise_append]
    refine ⟨by split <;> simp, ih _ _, ?_⟩
    intro a ha b hb
    obtain ⟨x, hx, rfl⟩ := List.mem_map.1 hb
    have := ixFrom_gt (fl := fl) (pos + op.len fl) (id + 1) calls x hx
    split at ha
    · simp at ha
    · simp only [List.map_cons, List.map_nil, List.mem_singleton] at ha
      omega

/-- The first entry beyond `s` is the token that contains `s`. -/
theorem ixFrom_find (pos id s : Nat) (calls : List (Op α)) (hs : pos ≤ s) :
    match (ixFrom fl pos id calls).find? (fun x => s < x.index) with
    | none => pos + textLen fl calls ≤ s
    | some x => ∃ k op, x.id = id + k ∧ calls[k]? = some op ∧ op.len fl ≠ 0 ∧
        pos + textLen fl (calls.take k) ≤ s ∧ s < pos + textLen fl (calls.take k) + op.len fl := by
  induction calls generalizing pos id with
  | nil => simpa [ixFrom, textLen] using hs
  | cons op calls ih =>
    simp only [ixFrom]
    by_cases hz : op.len fl = 0
    · rw [if_pos hz, List.nil_append]
      have := ih (pos + op.len fl) (id + 1) (by omega)
      split at this
      · simp only [textLen, List.map_cons, List.sum_cons] at this ⊢; omega
      · obtain ⟨k, op', h1, h2, h3, h4, h5⟩ := this
        refine ⟨k + 1, op', by omega, by simpa using h2, h3, ?_, ?_⟩ <;>
          simp only [List.take_succ_cons, textLen, List.map_cons, List.sum_cons] at * <;> omega
    · rw [if_neg hz]
      by_cases hlt : s < pos + op.len fl
      · rw [List.singleton_append, List.find?_cons_of_pos (by simpa using hlt)]
        exact ⟨0, op, rfl, rfl, hz, by simp [textLen]; omega, by simp [textLen]; omega⟩
      · rw [List.singleton_append, List.find?_cons_of_neg (by simpa using hlt)]
        have := ih (pos + op.len fl) (id + 1) (by omega)
        split at this
        · simp only [textLen, List.map_cons, List.sum_cons] at this ⊢; omega
        · obtain ⟨k, op', h1, h2, h3, h4, h5⟩ := this
          refine ⟨k + 1, op', by omega, by simpa using h2, h3, ?_, ?_⟩ <;>
            simp only [List.take_succ_cons, textLen, List.map_cons, List.sum_cons] at * <;> omega

/-- Both outcomes of the search lead to the first entry beyond the key. -/
theorem SearchSpec.find {search : List TreeIndex → Nat → Search} (h : SearchSpec search)
    {L : List TreeIndex} (hL : (L.map (·.index)).Pairwise (· < ·)) (k : Nat) :
    L[(search L k).position]? = L.find? (fun x => k < x.index) := by
  have key : ∀ n, n ≤ L.length → (∀ x ∈ L.take n, x.index ≤ k) → (∀ x ∈ L.drop n, k < x.index) →
      L[n]? = L.find? (fun x => k < x.index) := by
    intro n hn h1 h2
    rw [← List.take_append_drop n L, List.find?_append]
    have : (L.take n).find? (fun x => k < x.index) = none := by
      rw [List.find?_eq_none]
      intro x hx
      have := h1 x hx
      simp; omega
    rw [this, Option.none_or]
    have hl : (L.take n).length = n := by simp [hn]
    rw [List.getElem?_append_right (by omega), hl, Nat.sub_self]
    cases hd : L.drop n with
    | nil => rfl
    | cons x r =>
      have := h2 x (by rw [hd]; simp)
      simp [this]
  have hs := h L k hL
  cases hsr : search L k with
  | ok n =>
    rw [hsr] at hs
    simp only [Search.position] at hs ⊢
    obtain ⟨x, hx, rfl⟩ := hs
    obtain ⟨hn, rfl⟩ := List.getElem?_eq_some_iff.1 hx
    apply key (n + 1) hn
    · intro y hy
      rw [List.pairwise_iff_getElem] at hL
      obtain ⟨i, hi, rfl⟩ := List.mem_iff_getElem.1 hy
      simp only [List.length_take] at hi
      rw [List.getElem_take]
      by_cases e : i = n
      · subst e; exact Nat.le_refl _
      · have := hL i n (by simp; omega) (by simpa using hn) (by omega)
        simp only [List.getElem_map] at this
        omega
    · intro y hy
      rw [List.pairwise_iff_getElem] at hL
      obtain ⟨i, hi, rfl⟩ := List.mem_iff_getElem.1 hy
      simp only [List.length_drop] at hi
      rw [List.getElem_drop]
      have := hL n (n + 1 + i) (by simpa using hn) (by simp; omega) (by omega)
      simpa only [List.getElem_map] using this
  | err n =>
    rw [hsr] at hs
    simp only [Search.position] at hs ⊢
    exact key _ hs.1 (fun x hx => Nat.le_of_lt (hs.2.1 x hx)) hs.2.2

/-! ## Climbing -/

theorem Represents.climb {g : Bool} {t : Tree α} {F : Forest (Lab α)} (h : Represents g t F)
    (stop : Nat) (anc : List (Lab α)) :
    ∀ {left kids right : Forest (Lab α)} {x : Lab α} {fuel : Nat},
    Loc F anc left x kids right → anc.length < fuel →
    climb t.nodes stop fuel x.id = .some (enclosing t stop x.id (anc.map (·.id))) := by
  induction anc with
  | nil =>
    intro left kids right x fuel hl hf
    cases fuel with
    | zero => simp at hf
    | succ fuel =>
      have hpar : nodeParent t.nodes x.id = none := h.node_parent hl
      unfold Syntree.climb
      rw [hpar]; rfl
  | cons q anc ih =>
    intro left kids right x fuel hl hf
    cases fuel with
    | zero => simp at hf
    | succ fuel =>
      have hpar : nodeParent t.nodes x.id = some q.id := h.node_parent hl
      obtain ⟨l, r, hq⟩ := hl.parent
      have hsp : nodeSpan t.nodes q.id = some q.span := (h.node_get hq).2.2.1
      have key := ih hq (fuel := fuel) (by simpa using hf)
      unfold Syntree.climb
      rw [hpar]
      simp only [hsp]
      by_cases hge : q.span.stop ≥ stop
      · rw [if_pos hge]
        unfold enclosing
        rw [List.map_cons, List.find?_cons_of_pos (by simp [hsp]; exact hge)]
      · rw [if_neg hge, key]
        unfold enclosing
        rw [List.map_cons, List.find?_cons_of_neg (by simp [hsp]; omega)]
        cases (anc.map (·.id)).find? (fun p => (nodeSpan t.nodes p).any (fun sp => stop ≤ sp.stop)) with
        | some p => rfl
        | none =>
          simp only
          congr 1
          cases anc with
          | nil => rfl
          | cons a b =>
            simp only [List.map_cons, List.getLast?_cons_cons]
            rw [List.getLast?_cons]; rfl

/-! ## The standard library's search has the contract -/

theorem searchLoop_spec (L : List TreeIndex) (k : Nat) (hL : (L.map (·.index)).Pairwise (· < ·))
    (fuel : Nat) : ∀ base size, size ≤ fuel → 0 < size → base + size ≤ L.length →
    (∀ x ∈ L.take base, x.index ≤ k) → (0 < base → ∀ x, L[base]? = some x → x.index ≤ k) →
    (∀ x ∈ L.drop (base + size), k < x.index) →
    let b := searchLoop L k fuel base size
    b < L.length ∧ (∀ x ∈ L.take b, x.index ≤ k) ∧ (0 < b → ∀ x, L[b]? = some x → x.index ≤ k) ∧
    (∀ x ∈ L.drop (b + 1), k < x.index) := by
  have mono : ∀ i j (hi : i < L.length) (hj : j < L.length), i < j → L[i].index < L[j].index := by
    intro i j hi hj hij
    rw [List.pairwise_iff_getElem] at hL
    have := hL i j (by simpa using hi) (by simpa using hj) hij
    rw [List.getElem_map, List.getElem_map] at this
    exact this
  induction fuel with
  | zero => intro base size h1 h2; omega
  | succ fuel ih =>
    intro base size h1 h2 h3 h4 h5 h6
    unfold searchLoop
    by_cases hs : size > 1
    · rw [if_pos hs]
      simp only
      have hmid : base + size / 2 < L.length := by omega
      rw [List.getElem?_eq_getElem hmid]
      simp only
      by_cases hg : L[base + size / 2].index > k
      · rw [if_pos hg]
        refine ih base (size - size / 2) (by omega) (by omega) (by omega) h4 h5 ?_
        intro x hx
        obtain ⟨i, hi, rfl⟩ := List.mem_iff_getElem.1 hx
        rw [List.length_drop] at hi
        rw [List.getElem_drop]
        by_cases e : base + (size - size / 2) + i = base + size / 2
        · simp only [e]; exact hg
        · have := mono (base + size / 2) (base + (size - size / 2) + i) hmid (by omega) (by omega)
          omega
      · rw [if_neg hg]
        refine ih (base + size / 2) (size - size / 2) (by omega) (by omega) (by omega) ?_ ?_ ?_
        · intro x hx
          obtain ⟨i, hi, rfl⟩ := List.mem_iff_getElem.1 hx
          rw [List.length_take] at hi
          rw [List.getElem_take]
          have := mono i (base + size / 2) (by omega) hmid (by omega)
          omega
        · intro _ x hx
          rw [List.getElem?_eq_getElem hmid] at hx
          obtain rfl := Option.some.inj hx
          omega
        · have e : base + size / 2 + (size - size / 2) = base + size := by omega
          rw [e]; exact h6
    · rw [if_neg hs]
      have e : size = 1 := by omega
      subst e
      exact ⟨by omega, h4, h5, h6⟩

theorem binarySearch_spec : SearchSpec binarySearch := by
  intro L k hL
  unfold binarySearch
  by_cases h0 : L.length = 0
  · rw [if_pos h0]
    have : L = [] := List.eq_nil_of_length_eq_zero h0
    subst this
    simp
  · rw [if_neg h0]
    obtain ⟨h1, h2, h3, h4⟩ := searchLoop_spec L k hL L.length 0 L.length (Nat.le_refl _) (by omega)
      (by omega) (by simp) (by simp) (by simp)
    simp only
    generalize searchLoop L k L.length 0 L.length = b at h1 h2 h3 h4
    have mono : ∀ i j (hi : i < L.length) (hj : j < L.length), i < j → L[i].index < L[j].index := by
      intro i j hi hj hij
      rw [List.pairwise_iff_getElem] at hL
      have := hL i j (by simpa using hi) (by simpa using hj) hij
      rw [List.getElem_map, List.getElem_map] at this
      exact this
    rw [List.getElem?_eq_getElem h1] at h3 ⊢
    simp only
    have hlt : L[b].index ≤ k → ∀ x ∈ L.take b, x.index < k := by
      intro hle x hx
      obtain ⟨i, hi, rfl⟩ := List.mem_iff_getElem.1 hx
      rw [List.length_take] at hi
      rw [List.getElem_take]
      have := mono i b (by omega) h1 (by omega)
      omega
    by_cases he : L[b].index = k
    · rw [if_pos he]
      exact ⟨_, List.getElem?_eq_getElem h1, he⟩
    · rw [if_neg he]
      by_cases hl : L[b].index < k
      · rw [if_pos hl]
        refine ⟨by omega, ?_, h4⟩
        intro x hx
        obtain ⟨i, hi, rfl⟩ := List.mem_iff_getElem.1 hx
        rw [List.length_take] at hi
        rw [List.getElem_take]
        by_cases e : i = b
        · subst e; exact hl
        · have := mono i b (by omega) h1 (by omega)
          omega
      · rw [if_neg hl]
        have hb : b = 0 := by
          by_cases hb : 0 < b
          · have := h3 hb _ rfl; omega
          · omega
        subst hb
        refine ⟨by omega, by simp, ?_⟩
        intro x hx
        obtain ⟨i, hi, rfl⟩ := List.mem_iff_getElem.1 hx
        simp only [Nat.add_zero, List.drop_zero] at hi ⊢
        by_cases e : i = 0
        · subst e; omega
        · have := mono 0 i h1 (by simpa using hi) (by omega)
          omega

end Syntree
