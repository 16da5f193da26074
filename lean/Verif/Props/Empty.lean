import Verif.Proof.Empty
import Verif.Props.Range
import Verif.Props.Misuse
import Verif.Spec.Empty

/-! # C47: the `Empty` index, and trees without a span index -/

namespace Syntree

variable {α : Type} {fl : Flavor}

/-- The calls of a client of the `Empty` index: all explicit positions are `Empty`. -/
def Typed (ops : List (Op α)) : Prop := ∀ op ∈ ops, op.bare = op

theorem Typed.map {ops : List (Op α)} (h : Typed ops) : ops.map Op.bare = ops :=
  (List.map_congr_left (g := id) h).trans (List.map_id ops)

/-- With the `Empty` index nothing overflows the index. -/
theorem indexOk_empty (h : fl.ik = .empty) (c : Nat) (op : Op α) : IndexOk fl c op := by
  cases op <;> simp [IndexOk, h, IndexKind.lenIsEmpty]

/-- C47: with the `Empty` index every span is empty: after any calls whatsoever (misuse and failures
included) the span of every node is `Empty..Empty`, and so are the cursor and the span of the tree. -/
theorem C47_spans_empty (hik : fl.ik = .empty) {ops : List (Op α)} (ht : Typed ops) :
    let s := (Sys.init.run fl ops).1
    (∀ i, i < s.b.tree.len → nodeSpan s.b.tree.nodes i = some ⟨0, 0⟩) ∧
    s.b.cursor = 0 ∧ s.b.tree.getSpan = ⟨0, 0⟩ := by
  intro s
  have h1 : Sys.init.run fl.unindexed ops = (s.noIdx, (Sys.init.run fl ops).2) :=
    Sys.run_noIdx (fl := fl) Sys.init ops
  have hsim : Sim fl.unindexed fl.unindexed := ⟨hik, rfl, rfl⟩
  have h2 := Sys.run_bare hsim (Sys.init : Sys α) ops
    (fun pre op post _ => indexOk_empty (fl := fl.unindexed) hik _ op)
  rw [ht.map] at h2
  have h3 : (Sys.init : Sys α).bare = Sys.init := rfl
  rw [h3, h1] at h2
  have h4 : s.noIdx = s.noIdx.bare := congrArg Prod.fst h2
  have h5 : s.noIdx.b = s.noIdx.bare.b := congrArg Sys.b h4
  have h6 : s.b.tree.nodes = s.b.tree.nodes.map Links.bare :=
    congrArg (fun b : Builder α => b.tree.nodes) h5
  refine ⟨?_, congrArg Builder.cursor h5, congrArg (fun b : Builder α => b.tree.span) h5⟩
  intro i hi
  rw [h6]
  simp only [nodeSpan, List.getElem?_map]
  rw [List.getElem?_eq_getElem hi]
  rfl

/-- C47: with the `Empty` index `token` of any length returns the next id, unless the pointers are
used up; it never fails because of the index. -/
theorem C47_token_never_overflows_index (hik : fl.ik = .empty) (ops : List (Op α)) (d : α)
    (len : Nat) {s : Sys α} {os : List (Except Err Out)} (hs : Sys.init.run fl ops = (s, os)) :
    (s.step fl (.token d len)).2 = if s.b.tree.len < 2 ^ fl.width - 1 then
      .ok (.id s.b.tree.len) else .error .overflow := by
  have h := C26_capacity_exact fl ops hs
  have := h.2.2.2.1 d len (.inl (by simp [hik, IndexKind.lenIsEmpty]))
  rw [h.1]; exact this

/-- C47: with `EmptyVec` as span index, every range query returns `None`, whatever the standard
library's binary search does. -/
theorem C47_no_range_queries (hk : fl.keepIdx = false) (ops : List (Op α))
    (search : List TreeIndex → Nat → Search) {t : Tree α}
    (ht : (Sys.init.run fl ops).1.b.build = .ok t) (span : Span) (a b : Nat) :
    t.nodeWithSpan search span = .none ∧ t.nodeWithRange fl search a b = .none := by
  have hu : fl.unindexed = fl := by
    cases fl; simp only at hk; subst hk; rfl
  have h1 := Sys.run_noIdx (fl := fl) (Sys.init : Sys α) ops
  rw [hu] at h1
  have h0 : (Sys.init : Sys α).noIdx = Sys.init := rfl
  rw [h0] at h1
  have h2 := congrArg (fun p : Sys α × List (Except Err Out) => p.1.b.tree.indexes) h1
  simp only at h2
  have h3 : (Sys.init.run fl ops).1.b.tree.indexes = [] := h2
  have h4 : t.indexes = [] := by
    unfold Builder.build at ht
    split at ht
    · simp at ht
    · simp only [Except.ok.injEq] at ht
      rw [← ht]; exact h3
  have h5 : ∀ a b, t.nodeWithSpanInternal search a b = .none := by
    intro a b; simp [Tree.nodeWithSpanInternal, h4]
  refine ⟨h5 _ _, ?_⟩
  unfold Tree.nodeWithRange
  cases fl.ik.fromUsize a with
  | none => rfl
  | some s => cases fl.ik.fromUsize b with
    | none => rfl
    | some e => exact h5 _ _

/-- C47: the choice of the span index changes nothing but range queries: for every history, whatever
is misused, all results are the same and the trees have the same nodes with the same values, spans
and links. -/
theorem C47_span_index_is_separate (ops : List (Op α)) :
    let s := Sys.init.run fl ops
    let s' := Sys.init.run fl.unindexed ops
    s'.2 = s.2 ∧ s'.1.b.tree.nodes = s.1.b.tree.nodes ∧ s'.1.b.tree.first = s.1.b.tree.first ∧
      s'.1.b.tree.last = s.1.b.tree.last ∧ s'.1.b.tree.span = s.1.b.tree.span ∧
      s'.1.b.build = s.1.b.build.map Tree.noIdx := by
  have h1 := Sys.run_noIdx (fl := fl) (Sys.init : Sys α) ops
  have h0 : (Sys.init : Sys α).noIdx = Sys.init := rfl
  rw [h0] at h1
  intro s s'
  have h2 : s' = (s.1.noIdx, s.2) := h1
  clear_value s s'
  subst h2
  refine ⟨rfl, rfl, rfl, rfl, rfl, ?_⟩
  unfold Builder.build
  have e : s.1.noIdx.b.parent = s.1.b.parent := rfl
  rw [e]
  split <;> rfl

/-- C47: the structure is unaffected by the `Empty` index: for every history in which no token runs
out of the range of the index (misuse of checkpoints and other failures included), the same calls
with the `Empty` index return the same results and build the same tree, except that it has no
spans. -/
theorem C47_structure_unaffected {ops : List (Op α)}
    (hi : ∀ pre op post, ops = pre ++ op :: post →
      IndexOk fl (Sys.init.run fl pre).1.b.cursor op) :
    let s := Sys.init.run fl ops
    let s' := Sys.init.run fl.emptied (ops.map Op.bare)
    s'.2 = s.2 ∧ s'.1.b.tree = s.1.b.tree.bare ∧ s'.1.b.build = s.1.b.build.map Tree.bare := by
  have h2 := Sys.run_bare (fl := fl) (flE := fl.emptied) ⟨rfl, rfl, rfl⟩ (Sys.init : Sys α) ops hi
  have h3 : (Sys.init : Sys α).bare = Sys.init := rfl
  rw [h3] at h2
  intro s s'
  have h4 : s' = (s.1.bare, s.2) := h2
  clear_value s s'
  subst h4
  refine ⟨rfl, rfl, ?_⟩
  unfold Builder.build
  have e : s.1.bare.b.parent = s.1.b.parent := rfl
  rw [e]
  split <;> rfl

/-- A history with a token, a misused and a properly used checkpoint. -/
def emptyOps : List (Op Nat) :=
  [.checkpoint, .open 1, .token 2 5, .closeAt 0 3, .close, .closeAt 0 4, .tokenWith 5 ⟨0, 0⟩]

example : Typed emptyOps := by unfold Typed; decide

/-- The documentation's flavor: `Empty` index and `EmptyVec`. -/
example := C47_spans_empty (fl := ⟨.empty, 64, false⟩) rfl (ops := emptyOps) (by unfold Typed; decide)

/-- The hypothesis of the structure theorem for a history with the default flavor. -/
example : ∀ pre op post, emptyOps = pre ++ op :: post →
    IndexOk Flavor.default (Sys.init.run Flavor.default pre).1.b.cursor op := by
  intro pre op post h
  have hmem : op ∈ emptyOps := by rw [h]; simp
  cases op <;> try trivial
  rename_i d len
  -- the only token with a length is the third call
  have key : pre = [.checkpoint, .open 1] ∧ len = 5 := by
    unfold emptyOps at h
    rcases pre with _ | ⟨a, pre⟩
    · simp at h
    · rcases pre with _ | ⟨b, pre⟩
      · simp at h
      · rcases pre with _ | ⟨c, pre⟩
        · simp only [List.cons_append, List.nil_append, List.cons.injEq] at h
          obtain ⟨rfl, rfl, h3, _⟩ := h
          simp only [Op.token.injEq] at h3
          exact ⟨rfl, h3.2.symm⟩
        · exfalso
          simp only [List.cons_append, List.cons.injEq] at h
          have hm : Op.token d len ∈ pre ++ .token d len :: post := by simp
          rw [← h.2.2.2] at hm
          simp at hm
  obtain ⟨rfl, rfl⟩ := key
  exact .inr rfl

end Syntree
