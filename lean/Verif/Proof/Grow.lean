import Verif.Proof.Cover
import Verif.Spec.Grow

/-! The rule for spans holds in every state of the nested-list machine. -/

namespace Syntree

variable {α : Type} {fl : Flavor}

open Forest

theorem unwrapped_append (calls : List (Op α)) (F G : Forest (Lab α)) :
    (F ++ G).unwrapped calls = F.unwrapped calls ++ G.unwrapped calls := by
  induction F with
  | nil => rfl
  | cons x k r _ ih => simp [unwrapped, ih]

theorem bornFrom_snoc (pre ops : List (Op α)) (op : Op α) :
    bornFrom fl pre (ops ++ [op]) = bornFrom fl pre ops ++
      (if (idOf (((Sys.init.run fl (pre ++ ops)).1).step fl op).2).isSome then
        [op.bornSpan fl (Sys.init.run fl (pre ++ ops)).1.b.cursor] else []) := by
  induction ops generalizing pre with
  | nil => simp [bornFrom]
  | cons o ops ih =>
    simp only [List.cons_append, bornFrom, ih]
    simp

/-- The children so far of the open nodes explain their spans. `p` is the end of the span with which
the node being built inside was opened. -/
def Chain (calls : List (Op α)) (born : List Span) : Forest (Lab α) → Option Nat → Stack α → Prop
  | _, _, [] => True
  | ks, p, (x, left) :: st =>
    (∃ op, calls[x.id]? = some op ∧ ((∃ d, op = .open d) ∨ ∃ d s, op = .openWith d s)) ∧
    (∃ b, born[x.id]? = some b ∧
      x.span = (match p with
        | none => (ks.unwrapped calls).foldl (growBy calls born) b
        | some e => ⟨((ks.unwrapped calls).foldl (growBy calls born) b).start, e⟩) ∧
      Chain calls born left (some b.stop) st)

structure GrowInv (calls : List (Op α)) (born : List Span) (n : Nest α) : Prop where
  cur : Every (fun x k => x.span = spanRule calls born x k) n.cur
  left : ∀ p ∈ n.stack, Every (fun x k => x.span = spanRule calls born x k) p.2
  chain : Chain calls born n.cur none n.stack

variable {calls : List (Op α)} {born : List Span}

theorem spanRule_leaf (x : Lab α) : spanRule calls born x .nil = (born[x.id]?).getD ⟨0, 0⟩ := by
  simp [spanRule, wraps, isNil, unwrapped]

theorem unwrapped_snoc (F : Forest (Lab α)) (x : Lab α) (k : Forest (Lab α))
    (h : wraps calls x k = false) :
    (F ++ Forest.single x k).unwrapped calls = F.unwrapped calls ++ [x] := by
  simp [unwrapped_append, unwrapped, h]

/-- A leaf is added by a call that sets the end of the parent. -/
theorem GrowInv.leaf {n n' : Nest α} {op : Op α} (h : GrowInv calls born n) {d : α} {sp : Span}
    (hc : calls[n.count]? = some op) (hb : born[n.count]? = some sp)
    (hcur : n'.cur = n.cur ++ Forest.leaf ⟨n.count, d, sp⟩)
    (hst : n'.stack = Nest.endParent sp.stop n.stack)
    (h1 : ∀ d, op ≠ .open d) (h2 : ∀ d s, op ≠ .openWith d s) (h3 : ∀ d s, op ≠ .tokenWith d s) :
    GrowInv calls born n' := by
  refine ⟨?_, ?_, ?_⟩
  · rw [hcur, Every.append]
    exact ⟨h.cur, by simp [spanRule_leaf, hb], trivial, trivial⟩
  · intro p hp
    rw [hst] at hp
    obtain ⟨q, hq, e, _⟩ := mem_endParent' hp
    rw [← e]; exact h.left q hq
  · rw [hcur, hst]
    have hch := h.chain
    cases hs : n.stack with
    | nil => trivial
    | cons p st =>
      obtain ⟨x, left⟩ := p
      rw [hs] at hch
      obtain ⟨h4, b, h5, h6, h7⟩ := hch
      refine ⟨h4, b, h5, ?_, h7⟩
      simp only at h6
      have hg : ∀ s : Span, growBy calls born s ⟨n.count, d, sp⟩ = ⟨s.start, sp.stop⟩ := by
        intro s
        unfold growBy
        simp only [hc]
        cases op <;> simp_all
      simp only [unwrapped_snoc _ _ _ (show wraps calls _ .nil = false by simp [wraps, isNil]),
        List.foldl_append, List.foldl_cons, List.foldl_nil, ← h6, hg]

theorem GrowInv.did {n n' : Nest α} {op : Op α} {o : Except Err Out}
    (h : GrowInv calls born n) (hd : Did fl n op n' o)
    (hnew : (idOf o).isSome → calls[n.count]? = some op ∧
      born[n.count]? = some (op.bornSpan fl n.cursor)) : GrowInv calls born n' := by
  cases hd with
  | fail _ _ => exact h
  | lost d len c he ha hf => exact ⟨h.cur, h.left, h.chain⟩
  | noHandle _ => exact h
  | setCursor i => exact ⟨h.cur, h.left, h.chain⟩
  | mark _ => exact ⟨h.cur, h.left, h.chain⟩
  | opened _ d sp hop _ =>
    obtain ⟨hc, hb⟩ := hnew rfl
    have hsp : op.bornSpan fl n.cursor = sp := by
      rcases hop with ⟨rfl, rfl⟩ | rfl
      · simp [Op.bornSpan, Op.len, Span.point]
      · rfl
    rw [hsp] at hb
    refine ⟨trivial, ?_, ?_⟩
    · intro p hp
      simp only [Nest.addOpen, List.mem_cons] at hp
      rcases hp with rfl | hp
      · exact h.cur
      · obtain ⟨q, hq, e, _⟩ := mem_endParent' hp
        rw [← e]; exact h.left q hq
    · refine ⟨⟨op, hc, ?_⟩, sp, hb, by simp [Nest.addOpen, unwrapped], ?_⟩
      · rcases hop with ⟨rfl, _⟩ | rfl
        · exact .inl ⟨_, rfl⟩
        · exact .inr ⟨_, _, rfl⟩
      · have hch := h.chain
        cases hs : n.stack with
        | nil => trivial
        | cons p st =>
          obtain ⟨x, left⟩ := p
          rw [hs] at hch
          obtain ⟨h4, b, h5, h6, h7⟩ := hch
          simp only at h6
          exact ⟨h4, b, h5, by simp only [h6], h7⟩
  | emptyTok _ d hop _ =>
    obtain ⟨hc, hb⟩ := hnew rfl
    have hsp : op.bornSpan fl n.cursor = Span.point n.cursor := by
      rcases hop with ⟨len, rfl, he⟩ | rfl
      · simp [Op.bornSpan, Op.len, Span.point, he]
      · simp [Op.bornSpan, Op.len, Span.point]
    rw [hsp] at hb
    refine h.leaf hc hb rfl rfl ?_ ?_ ?_ <;> rcases hop with ⟨_, rfl, _⟩ | rfl <;> simp
  | tok d len c he ha _ =>
    obtain ⟨hc, hb⟩ := hnew rfl
    have := checkedAddLen_some he ha
    have hsp : (Op.token d len).bornSpan fl n.cursor = ⟨n.cursor, c⟩ := by
      simp [Op.bornSpan, Op.len, he, this]
    rw [hsp] at hb
    have h' : GrowInv calls born { n with cursor := c, stop := c } := ⟨h.cur, h.left, h.chain⟩
    exact h'.leaf hc hb rfl rfl (by simp) (by simp) (by simp)
  | tokWith d sp _ =>
    obtain ⟨hc, hb⟩ := hnew rfl
    refine ⟨?_, ?_, ?_⟩
    · simp only [Nest.addLeaf]
      rw [Every.append]
      exact ⟨h.cur, by simp [spanRule_leaf, hb, Op.bornSpan], trivial, trivial⟩
    · intro p hp
      simp only [Nest.addLeaf] at hp
      obtain ⟨q, hq, e, _⟩ := mem_growParent' hp
      obtain ⟨q', hq', e', _⟩ := mem_endParent' hq
      rw [← e, ← e']; exact h.left q' hq'
    · simp only [Nest.addLeaf]
      have hch := h.chain
      cases hs : n.stack with
      | nil => trivial
      | cons p st =>
        obtain ⟨x, left⟩ := p
        rw [hs] at hch
        obtain ⟨h4, b, h5, h6, h7⟩ := hch
        refine ⟨h4, b, h5, ?_, h7⟩
        simp only at h6
        have hg : ∀ s : Span, growBy calls born s ⟨n.count, d, sp⟩ =
            ⟨min s.start sp.start, sp.stop⟩ := by
          intro s
          unfold growBy
          simp only [hc]
        simp only [unwrapped_snoc _ _ _ (show wraps calls _ .nil = false by simp [wraps, isNil]),
          List.foldl_append, List.foldl_cons, List.foldl_nil, ← h6, hg, Span.join, Nat.max_self]
  | closed x left st hs =>
    have hch := h.chain
    rw [hs] at hch
    obtain ⟨⟨op, h4, h4'⟩, b, h5, h6, h7⟩ := hch
    have hw : ∀ k, wraps calls x k = false := by
      intro k
      unfold wraps
      rw [h4]
      rcases h4' with ⟨d, rfl⟩ | ⟨d, s, rfl⟩ <;> simp [Op.isCloseAt]
    refine ⟨?_, ?_, ?_⟩
    · show Every _ (left ++ Forest.single x n.cur)
      rw [Every.append]
      refine ⟨h.left (x, left) (by rw [hs]; simp), ⟨?_, h.cur, trivial⟩⟩
      simp only [spanRule, hw, h5, Option.getD_some]
      exact h6
    · intro p hp
      obtain ⟨q, hq, e, _⟩ := mem_growParent' hp
      rw [← e]; exact h.left q (by rw [hs]; simp [hq])
    · show Chain calls born (left ++ Forest.single x n.cur) none (Nest.growParent x.span st)
      cases st with
      | nil => trivial
      | cons p st =>
        obtain ⟨y, l⟩ := p
        obtain ⟨g1, b', g2, g3, g4⟩ := h7
        refine ⟨g1, b', g2, ?_, g4⟩
        simp only at g3
        have hg : ∀ s : Span, growBy calls born s x =
            ⟨min s.start x.span.start, max b.stop x.span.stop⟩ := by
          intro s
          unfold growBy
          rw [h4, h5]
          rcases h4' with ⟨d, rfl⟩ | ⟨d, s, rfl⟩ <;> rfl
        simp only [unwrapped_snoc _ _ _ (hw n.cur), List.foldl_append, List.foldl_cons,
          List.foldl_nil, hg, Span.join, g3]
  | wrapped _ k d explicit m hop _ _ _ _ =>
    obtain ⟨hc, hb⟩ := hnew rfl
    unfold Nest.wrap
    by_cases hnil : (n.cur.drop m.pos).isNil = true
    · rw [if_pos hnil]
      have hsp : op.bornSpan fl n.cursor = explicit.getD (Span.point n.cursor) := by
        rcases hop with ⟨rfl, rfl⟩ | ⟨sp, rfl, rfl⟩
        · simp [Op.bornSpan, Op.len, Span.point]
        · rfl
      rw [hsp] at hb
      refine h.leaf hc hb rfl rfl ?_ ?_ ?_ <;> rcases hop with ⟨rfl, _⟩ | ⟨sp, rfl, _⟩ <;> simp
    · rw [if_neg hnil]
      have hw : ∀ s, wraps calls ⟨n.count, d, s⟩ (n.cur.drop m.pos) = true := by
        intro s
        unfold wraps
        simp only [hc]
        rcases hop with ⟨rfl, _⟩ | ⟨sp, rfl, _⟩ <;> simp [Op.isCloseAt, hnil]
      have hcur := h.cur
      rw [← take_append_drop m.pos n.cur, Every.append] at hcur
      refine ⟨?_, h.left, ?_⟩
      · simp only
        rw [Every.append]
        refine ⟨hcur.1, ⟨?_, hcur.2, trivial⟩⟩
        simp only [spanRule, hw, if_true, hc]
        rcases hop with ⟨rfl, rfl⟩ | ⟨sp, rfl, rfl⟩
        · rfl
        · rfl
      · have hch := h.chain
        have e : (n.cur.take m.pos ++ Forest.single
            ⟨n.count, d, explicit.getD (Nest.stretch (n.cur.drop m.pos))⟩
            (n.cur.drop m.pos)).unwrapped calls = n.cur.unwrapped calls := by
          have := unwrapped_append calls (n.cur.take m.pos) (n.cur.drop m.pos)
          rw [take_append_drop] at this
          rw [this, unwrapped_append]
          simp [unwrapped, hw]
        cases hs : n.stack with
        | nil => simp only [hs]; trivial
        | cons p st =>
          obtain ⟨x, left⟩ := p
          rw [hs] at hch
          simp only [hs, Chain, e]
          exact hch

theorem GrowInv.of_run {ops : List (Op α)} {n : Nest α} {os : List (Except Err Out)}
    (h : Nest.init.run fl ops = some (n, os)) :
    GrowInv (made ops os) (bornSpans fl ops) n := by
  have key : ∀ (ops : List (Op α)) (n : Nest α) os, Nest.init.run fl ops = some (n, os) →
      (bornSpans fl ops).length = n.count ∧
      ∀ calls born, made ops os <+: calls → bornSpans fl ops <+: born →
        GrowInv calls born n := by
    refine Nest.run_induct (P := fun ops n os => (bornSpans fl ops).length = n.count ∧
      ∀ calls born, made ops os <+: calls → bornSpans fl ops <+: born →
        GrowInv calls born n) ?_ ?_
    · refine ⟨rfl, fun _ _ _ _ => ⟨trivial, ?_, trivial⟩⟩
      intro p hp
      simp [Nest.init] at hp
    · intro ops n os op n' o hrun hi hst
      obtain ⟨s, e, r⟩ := (Rel.init false).run (g' := false) fl ops hrun (by simp)
      have hrun' : Nest.init.run fl (ops ++ [op]) = some (n', os ++ [o]) := by
        rw [Nest.run_append, hrun]
        simp only [Nest.run, hst]
      have ho : (((Sys.init.run fl ops).1).step fl op).2 = o := by
        rw [e]
        obtain ⟨s', e', _⟩ := r.step (g' := false) fl op hst (by simp)
        rw [e']
      have hb : bornSpans fl (ops ++ [op]) = bornSpans fl ops ++
          (if (idOf o).isSome then [op.bornSpan fl n.cursor] else []) := by
        unfold bornSpans
        rw [bornFrom_snoc, List.nil_append, ho, e]
        simp only [r.cursor]
      have hm := made_snoc (Nest.run_length hrun) op o
      have hlen := (LogInv.of_run hrun).len
      have hlen' := (LogInv.of_run hrun').len
      constructor
      · rw [← hlen', hm, hb, List.length_append, List.length_append, hi.1, hlen]
        cases idOf o <;> rfl
      · intro calls born h1 h2
        rw [hm] at h1
        rw [hb] at h2
        refine (hi.2 calls born ((List.prefix_append _ _).trans h1)
          ((List.prefix_append _ _).trans h2)).did (Nest.step_did hst) ?_
        intro hsome
        rw [if_pos hsome] at h1 h2
        obtain ⟨t1, rfl⟩ := h1
        obtain ⟨t2, rfl⟩ := h2
        constructor
        · rw [← hlen]; simp
        · rw [← hi.1]; simp
  exact (key ops n os h).2 _ _ (List.prefix_refl _) (List.prefix_refl _)

theorem growBy_start (y : Lab α) (b : Span) :
    (growBy calls born b y).start =
      if ((calls[y.id]?).map Op.movesStart).getD false then min b.start y.span.start
      else b.start := by
  unfold growBy
  cases calls[y.id]? with
  | none => rfl
  | some op => cases op <;> simp [Op.movesStart]

theorem fold_start (ys : List (Lab α)) (b : Span) :
    let r := ys.foldl (growBy calls born) b
    let moving := ys.filter fun y => ((calls[y.id]?).map Op.movesStart).getD false
    r.start ≤ b.start ∧ (∀ y ∈ moving, r.start ≤ y.span.start) ∧
      (r.start = b.start ∨ ∃ y ∈ moving, r.start = y.span.start) := by
  induction ys generalizing b with
  | nil => exact ⟨Nat.le_refl _, by simp, .inl rfl⟩
  | cons y ys ih =>
    obtain ⟨h1, h2, h3⟩ := ih (growBy calls born b y)
    simp only [List.foldl_cons, List.filter_cons]
    rw [growBy_start] at h1 h3
    by_cases hm : ((calls[y.id]?).map Op.movesStart).getD false = true
    · simp only [hm, if_true] at h1 h3 ⊢
      refine ⟨by omega, ?_, ?_⟩
      · intro z hz
        rw [List.mem_cons] at hz
        rcases hz with rfl | hz
        · omega
        · exact h2 z hz
      · rcases h3 with h3 | ⟨z, hz, h3⟩
        · by_cases hle : b.start ≤ y.span.start
          · left; omega
          · right; exact ⟨y, by simp, by omega⟩
        · exact .inr ⟨z, by simp [hz], h3⟩
    · simp only [hm] at h1 h3 ⊢
      exact ⟨h1, h2, h3⟩

end Syntree
