import Verif.Spec.Edit
import Verif.Model.Edit
import Verif.Proof.Equal

/-! What `modify` does: a machine on nested lists. -/

namespace Syntree

variable {α : Type} {fl : Flavor}

open Forest

/-- The nodes of the input being copied, innermost first: node, children, siblings after it. -/
abbrev ECtx (α : Type) := List (Lab α × Forest (Lab α) × Forest (Lab α))

/-- The state of the copying walk. -/
inductive EM (α : Type) where
  | at (x : Lab α) (k r : Forest (Lab α)) (ctx : ECtx α) (n : Nest α)
  | done (n : Nest α)

/-- End the innermost node of the output. -/
def Nest.shut (n : Nest α) : Nest α :=
  match n.stack with
  | [] => n
  | (x, left) :: st => { n with cur := left ++ single x n.cur, stack := st }

def EM.leave : ECtx α → Nest α → EM α
  | [], n => .done n
  | (_, _, .nil) :: ctx, n => EM.leave ctx n.shut
  | (_, _, .cons y k r) :: ctx, n => .at y k r ctx n.shut

def EM.goto : Forest (Lab α) → ECtx α → Nest α → EM α
  | .nil, ctx, n => EM.leave ctx n
  | .cons x k r, ctx, n => .at x k r ctx n

/-- The position after copying a childless node. -/
def advance (ik : IndexKind) (c : Nat) (sp : Span) : Option Nat :=
  if sp.isEmpty then some c else ik.checkedAddLen c (sp.len ik)

def EM.emit (fl : Flavor) (x : Lab α) (k r : Forest (Lab α)) (ctx : ECtx α) (n : Nest α) :
    Except Err (EM α) :=
  match k with
  | .nil =>
    match advance fl.ik n.cursor x.span with
    | none => .error .overflow
    | some c => .ok (EM.goto r ctx ({ n with cursor := c }.addLeaf x.data ⟨n.cursor, c⟩))
  | .cons y k' r' =>
    .ok (.at y k' r' ((x, .cons y k' r', r) :: ctx) (n.addOpen x.data (Span.point n.cursor)))

def EM.step (fl : Flavor) (S : List Nat) (x : Lab α) (k r : Forest (Lab α)) (ctx : ECtx α)
    (n : Nest α) : Except Err (EM α) :=
  if n.full fl then .error .overflow
  else if n.count ∈ S then
    match r with
    | .cons y k' r' => EM.emit fl y k' r' ctx n
    | .nil =>
      match ctx with
      | [] => .ok (.done n)
      | (p, K, R) :: ctx => EM.emit fl p K R ctx n.shut
  else EM.emit fl x k r ctx n

def EM.run (fl : Flavor) (S : List Nat) : Nat → EM α → Except Err (Nest α)
  | 0, _ => .error .diverge
  | _ + 1, .done n => .ok n
  | fuel + 1, .at x k r ctx n =>
    match EM.step fl S x k r ctx n with
    | .error e => .error e
    | .ok m => EM.run fl S fuel m

/-- A run of siblings is stored in the input, as far as `modify` looks at it. -/
def InSeg (nodes : Slice α) : Forest (Lab α) → Prop
  | .nil => True
  | .cons x k r =>
    (∃ l, nodes[x.id]? = some l ∧ l.data = x.data ∧ l.span = x.span ∧ l.first = k.headId ∧
      l.next = r.headId) ∧ InSeg nodes k ∧ InSeg nodes r

theorem InSeg.kids {nodes : Slice α} {x : Lab α} {k r : Forest (Lab α)}
    (h : InSeg nodes (.cons x k r)) : InSeg nodes k := h.2.1

theorem InSeg.rest {nodes : Slice α} {x : Lab α} {k r : Forest (Lab α)}
    (h : InSeg nodes (.cons x k r)) : InSeg nodes r := h.2.2

theorem InSeg.get {nodes : Slice α} {x : Lab α} {k r : Forest (Lab α)}
    (h : InSeg nodes (.cons x k r)) :
    ∃ l, nodes[x.id]? = some l ∧ l.data = x.data ∧ l.span = x.span ∧ l.first = k.headId ∧
      l.next = r.headId := h.1

theorem Seg.half {g : Bool} {nodes : Slice α} (F : Forest (Lab α)) : ∀ {par prev : Option Nat},
    Seg g nodes F par prev none → InSeg nodes F := by
  induction F with
  | nil => intro _ _ _; trivial
  | cons x k r ihk ihr =>
    intro par prev h
    obtain ⟨⟨l, _, hx⟩, hk, hr⟩ := h
    exact ⟨⟨_, hx, rfl, rfl, rfl, by simp [mkLinks]⟩, ihk hk, ihr hr⟩

/-- The output and the walk of the model are those of the machine. -/
structure ERel (nodes : Slice α) (output : Tree α) (ref : RefactorWalk) (cursor : Nat)
    (ctx : ECtx α) (n : Nest α) : Prop where
  tree : TRep true output n.cur n.stack n.count
  inp : ref.parents.map (·.1) = ctx.map (·.1.id)
  out : ref.parents.map (·.2) = n.stack.map (·.1.id)
  segs : ∀ p ∈ ctx, InSeg nodes (.cons p.1 p.2.1 p.2.2)
  prev : ref.prev = n.cur.lastId
  cursor : cursor = n.cursor
  span : output.span = ⟨0, 0⟩

/-- The whole state. -/
def EState (nodes : Slice α) (st : ModState α) : EM α → Prop
  | .at x k r ctx n => ERel nodes st.output st.refactor st.cursor ctx n ∧
      InSeg nodes (.cons x k r) ∧ ∃ first, st.current = some (x.id, first) ∧ (first = true → n.cur = .nil)
  | .done n => TRep true st.output n.cur [] n.count ∧ n.stack = [] ∧ st.current = none ∧
      st.cursor = n.cursor ∧ st.output.span = ⟨0, 0⟩

theorem nodeNext_of {nodes : Slice α} {x : Lab α} {k r : Forest (Lab α)}
    (h : InSeg nodes (.cons x k r)) : nodeNext nodes x.id = r.headId := by
  obtain ⟨l, h1, _, _, _, h2⟩ := h.get
  cases r with
  | nil => simp only [headId_nil] at h2 ⊢; simp [nodeNext, follow, h1, h2]
  | cons y k' r' =>
    obtain ⟨l', h3, _⟩ := h.rest.get
    simp only [headId_cons] at h2 ⊢
    simp [nodeNext, follow, h1, h2, nodeAt, h3]

theorem nodeFirst_of {nodes : Slice α} {x : Lab α} {k r : Forest (Lab α)}
    (h : InSeg nodes (.cons x k r)) : nodeFirst nodes x.id = k.headId := by
  obtain ⟨l, h1, _, _, h2, _⟩ := h.get
  cases k with
  | nil => simp only [headId_nil] at h2 ⊢; simp [nodeFirst, follow, h1, h2]
  | cons y k' r' =>
    obtain ⟨l', h3, _⟩ := h.kids.get
    simp only [headId_cons] at h2 ⊢
    simp [nodeFirst, follow, h1, h2, nodeAt, h3]

/-- What copying one node does to the output, apart from the span index. -/
def emitTree (out : Tree α) (parent prev : Option Nat) (nodeId : Nat) (d : α) (sp : Span) : Tree α :=
  ((((if parent.isNone then out.addRoot nodeId else out).modifyOpt prev
    (fun l => { l with next := some nodeId })).modifyOpt parent (Links.addChild nodeId sp)).push
      ⟨d, sp, parent, prev, none, none, none⟩)

theorem modify_append {β : Type} (l : List β) (x : β) (i : Nat) (f : β → β) (h : i < l.length) :
    (l ++ [x]).modify i f = l.modify i f ++ [x] := by
  apply List.ext_getElem?
  intro j
  rcases Nat.lt_trichotomy j l.length with hj | hj | hj
  · rw [List.getElem?_append_left (by simpa using hj)]
    simp only [List.getElem?_modify]
    rw [List.getElem?_append_left hj]
  · subst hj
    rw [List.getElem?_append_right (by simp)]
    simp only [List.getElem?_modify]
    rw [List.getElem?_append_right (Nat.le_refl _)]
    have : i ≠ l.length := by omega
    simp [this]
  · rw [List.getElem?_eq_none (by simp; omega), List.getElem?_eq_none (by simp; omega)]

theorem modify_comm {β : Type} (l : List β) (i j : Nat) (f g : β → β) (h : ∀ x, f (g x) = g (f x)) :
    (l.modify i f).modify j g = (l.modify j g).modify i f := by
  apply List.ext_getElem?
  intro m
  simp only [List.getElem?_modify]
  cases l[m]? with
  | none => rfl
  | some x =>
    by_cases h1 : i = m <;> by_cases h2 : j = m <;> simp [h1, h2, h]

theorem emitTree_insert {out : Tree α} {parent prev : Option Nat} {d : α} {sp : Span}
    (hc : out.nodes.length < 2 ^ fl.width - 1)
    (hp : ∀ i, parent = some i → i < out.nodes.length)
    (hs : ∀ i, prev = some i → i < out.nodes.length) (b : Builder α) (hb : b.tree = out)
    (hbp : b.parent = parent) (hbs : b.sibling = prev) :
    b.insert fl d sp = (⟨emitTree out parent prev out.nodes.length d sp,
      b.checkpoint, b.parent, none, b.cursor⟩, .ok out.nodes.length) := by
  subst hb hbp hbs
  unfold Builder.insert
  simp only [Tree.len]
  rw [ptrNew_eq, if_pos hc]
  simp only [Prod.mk.injEq, and_true, Builder.mk.injEq]
  cases hbp : b.parent with
  | none =>
    cases hbs : b.sibling with
    | none => rfl
    | some s =>
      have := hs s hbs
      simp only [emitTree, Tree.modifyOpt, Tree.push, Tree.modifyNode, Tree.addRoot,
        modify_append _ _ _ _ this]
      rfl
  | some p =>
    have hp' := hp p hbp
    cases hbs : b.sibling with
    | none =>
      simp only [emitTree, Tree.modifyOpt, Tree.push, Tree.modifyNode,
        modify_append _ _ _ _ hp']
      rfl
    | some s =>
      have hs' := hs s hbs
      simp only [emitTree, Tree.modifyOpt, Tree.push, Tree.modifyNode, modify_append _ _ _ _ hp',
        Option.isNone_some, Bool.false_eq_true, if_false]
      rw [modify_append _ _ _ _ (by simpa using hs'), modify_comm]
      intro x; rfl

theorem parents_head {ps : List (Nat × Nat)} {st : Stack α}
    (h : ps.map (·.2) = st.map (·.1.id)) : ps.head?.map (·.2) = parOf st := by
  cases ps with
  | nil => cases st with
    | nil => rfl
    | cons => simp at h
  | cons p ps => cases st with
    | nil => simp at h
    | cons q st => simp only [List.map_cons, List.cons.injEq] at h; simp [parOf, h.1]

theorem ERel.shut {nodes : Slice α} {out : Tree α} {a b : Nat} {ps : List (Nat × Nat)}
    {pv : Option Nat} {c : Nat} {p : Lab α × Forest (Lab α) × Forest (Lab α)} {ctx : ECtx α}
    {n : Nest α} (h : ERel nodes out ⟨(a, b) :: ps, pv⟩ c (p :: ctx) n) :
    ERel nodes out ⟨ps, some b⟩ c ctx n.shut := by
  obtain ⟨h1, h2, h3, h4, _, h6, h7⟩ := h
  cases hs : n.stack with
  | nil => rw [hs] at h3; simp at h3
  | cons q st =>
    obtain ⟨y, left⟩ := q
    rw [hs] at h1 h3
    simp only [List.map_cons, List.cons.injEq] at h2 h3
    have e : n.shut = { n with cur := left ++ single y n.cur, stack := st } := by
      simp only [Nest.shut, hs]
    rw [e]
    refine ⟨h1.pop, h2.2, h3.2, fun q hq => h4 q (by simp [hq]), ?_, h6, h7⟩
    show some b = (left ++ single y n.cur).lastId
    rw [lastId_append, h3.1]; rfl

theorem ERel.ascend {nodes : Slice α} {out : Tree α} {c : Nat} (prev : Option Nat) :
    ∀ (ctx : ECtx α) {ps : List (Nat × Nat)} {n : Nest α} {pv : Option Nat},
    ERel nodes out ⟨ps, pv⟩ c ctx n →
    EState nodes ⟨out, (RefactorWalk.ascend nodes prev ps).1, c,
      (RefactorWalk.ascend nodes prev ps).2⟩ (EM.leave ctx n)
  | [], ps, n, pv, h => by
    have h2 := h.inp
    have h3 := h.out
    cases ps with
    | cons => simp at h2
    | nil =>
      cases hs : n.stack with
      | cons => rw [hs] at h3; simp at h3
      | nil =>
        have h1 := h.tree
        rw [hs] at h1
        exact ⟨h1, hs, rfl, h.cursor, h.span⟩
  | (p, K, R) :: ctx, ps, n, pv, h => by
    have h2 := h.inp
    cases ps with
    | nil => simp at h2
    | cons q ps =>
      obtain ⟨a, b⟩ := q
      simp only [List.map_cons, List.cons.injEq] at h2
      have hseg := h.segs (p, K, R) (by simp)
      have hn := nodeNext_of hseg
      have hs := h.shut
      rw [← h2.1] at hn
      unfold RefactorWalk.ascend
      simp only [hn]
      cases R with
      | nil =>
        simp only [headId_nil, EM.leave]
        exact ERel.ascend prev ctx hs
      | cons y k r =>
        simp only [headId_cons, EM.leave]
        exact ⟨hs, hseg.rest, false, rfl, by simp⟩

/-- The output tree after copying one node. -/
def emitted (fl : Flavor) (output : Tree α) (ps : List (Nat × Nat)) (pv : Option Nat) (nodeId : Nat)
    (l : Links α) (cursor c : Nat) : Tree α :=
  let base := (if ps.isEmpty then output.addRoot nodeId else output).modifyOpt pv
    (fun l => { l with next := some nodeId })
  let base := if l.first.isNone && ! l.span.isEmpty then base.pushIndex fl ⟨cursor, nodeId⟩ else base
  (base.modifyOpt (ps.head?.map (·.2)) (Links.addChild nodeId ⟨cursor, c⟩)).push
    ⟨l.data, ⟨cursor, c⟩, ps.head?.map (·.2), pv, none, none, none⟩

theorem emit_eq {nodes : Slice α} {output : Tree α} {ps : List (Nat × Nat)} {pv : Option Nat}
    {cursor nodeId node : Nat} {current : Option (Nat × Bool)} {first : Bool} {l : Links α}
    (hl : nodes[node]? = some l) (hf : first = true → pv = none) :
    ModState.emit fl nodes ⟨output, ⟨ps, pv⟩, cursor, current⟩ nodeId node first =
      match (if l.first.isNone then advance fl.ik cursor l.span else some cursor) with
      | none => .error .overflow
      | some c => .ok ⟨emitted fl output ps pv nodeId l cursor c,
          (RefactorWalk.step nodes ⟨ps, none⟩ node nodeId).1, c,
          (RefactorWalk.step nodes ⟨ps, none⟩ node nodeId).2⟩ := by
  have key : ∀ (first : Bool), (first = true → pv = none) →
      ModState.emit fl nodes ⟨output, ⟨ps, pv⟩, cursor, current⟩ nodeId node first =
      ModState.emit fl nodes ⟨output, ⟨ps, pv⟩, cursor, current⟩ nodeId node false := by
    intro first hf
    cases first with
    | false => rfl
    | true => rw [hf rfl]; rfl
  rw [key first hf]
  unfold ModState.emit
  simp only [hl, Bool.false_eq_true, if_false]
  cases hlf : l.first.isNone with
  | false =>
    simp only [Bool.false_and, Bool.false_eq_true, if_false]
    simp only [emitted, hlf, Bool.false_and, Bool.false_eq_true, if_false]
    rfl
  | true =>
    cases he : l.span.isEmpty with
    | true =>
      simp only [Bool.not_true, Bool.and_false, Bool.false_eq_true, if_false, if_true, advance, he]
      simp only [emitted, hlf, he, Bool.not_true, Bool.and_false, Bool.false_eq_true, if_false]
      rfl
    | false =>
      simp only [Bool.not_false, Bool.and_true, if_true, advance, he, Bool.false_eq_true, if_false]
      cases fl.ik.checkedAddLen cursor (l.span.len fl.ik) with
      | none => rfl
      | some c =>
        simp only [emitted, hlf, he, Bool.not_false, Bool.and_true, if_true]
        rfl

theorem emitted_tree {output : Tree α} {ps : List (Nat × Nat)} {pv : Option Nat} {nodeId : Nat}
    {l : Links α} {cursor c : Nat} :
    let T := emitted fl output ps pv nodeId l cursor c
    let E := emitTree output (ps.head?.map (·.2)) pv nodeId l.data ⟨cursor, c⟩
    T.nodes = E.nodes ∧ T.first = E.first ∧ T.last = E.last ∧ T.span = E.span := by
  have key : ∀ (T0 T1 : Tree α), T1.nodes = T0.nodes → T1.first = T0.first →
      T1.last = T0.last → T1.span = T0.span → ∀ (o : Option Nat) (f : Links α → Links α) (x : Links α),
      ((T1.modifyOpt o f).push x).nodes = ((T0.modifyOpt o f).push x).nodes ∧
      ((T1.modifyOpt o f).push x).first = ((T0.modifyOpt o f).push x).first ∧
      ((T1.modifyOpt o f).push x).last = ((T0.modifyOpt o f).push x).last ∧
      ((T1.modifyOpt o f).push x).span = ((T0.modifyOpt o f).push x).span := by
    intro T0 T1 a b c d o f x
    cases o <;> simp only [Tree.modifyOpt, Tree.push, Tree.modifyNode, a, b, c, d, and_self]
  have hps : ps.isEmpty = (ps.head?.map (·.2)).isNone := by cases ps <;> rfl
  simp only [emitted, emitTree]
  rw [hps]
  refine key _ _ ?_ ?_ ?_ ?_ _ _ _ <;>
    (split <;> first | rfl | (unfold Tree.pushIndex; split <;> rfl))

theorem emitTree_span {out : Tree α} {parent prev : Option Nat} {i : Nat} {d : α} {sp : Span} :
    (emitTree out parent prev i d sp).span = out.span := by
  unfold emitTree
  cases parent <;> cases prev <;> rfl

/-- The output after copying one node. -/
theorem ERel.emitted {nodes : Slice α} {output : Tree α} {ps : List (Nat × Nat)} {pv : Option Nat}
    {cursor : Nat} {ctx : ECtx α} {n : Nest α} {l : Links α} {c : Nat}
    (h : ERel nodes output ⟨ps, pv⟩ cursor ctx n) (hc : n.count < 2 ^ fl.width - 1) :
    TRep true (emitted fl output ps pv n.count l cursor c)
      (n.cur ++ leaf ⟨n.count, l.data, ⟨cursor, c⟩⟩) (Nest.endParent c n.stack) (n.count + 1) ∧
    TRep true (Syntree.emitted fl output ps pv n.count l cursor c) .nil
      ((⟨n.count, l.data, ⟨cursor, c⟩⟩, n.cur) :: Nest.endParent c n.stack) (n.count + 1) ∧
    (Syntree.emitted fl output ps pv n.count l cursor c).span = ⟨0, 0⟩ := by
  obtain ⟨h1, h2, h3, h4, h5, h6, h7⟩ := h
  simp only at h2 h3 h5
  have hpar := parents_head h3
  obtain ⟨e1, e2, e3, e4⟩ := emitted_tree (fl := fl) (output := output) (ps := ps) (pv := pv)
    (nodeId := n.count) (l := l) (cursor := cursor) (c := c)
  rw [hpar] at e1 e2 e3 e4
  let b : Builder α := ⟨output, none, parOf n.stack, pv, 0⟩
  have hi := emitTree_insert (fl := fl) (out := output) (parent := parOf n.stack) (prev := pv)
    (d := l.data) (sp := ⟨cursor, c⟩) (by rw [h1.len]; exact hc)
    (fun i hi => by rw [h1.len]; exact h1.lt (List.mem_append_right _ (parOf_mem hi)))
    (fun i hi => by rw [h1.len]; exact h1.lt (List.mem_append_left _ (lastId_mem (h5 ▸ hi))))
    b rfl rfl rfl
  rw [h1.len] at hi
  obtain ⟨T, t1, _, _, t4⟩ := TRep.insertLeaf (fl := fl) (b := b) (d := l.data) (sp := ⟨cursor, c⟩)
    h1 rfl h5 hc
  obtain ⟨T', t1', _, _, t4'⟩ := TRep.insertOpen (fl := fl) (b := b) (d := l.data) (sp := ⟨cursor, c⟩)
    h1 rfl h5 hc
  rw [hi] at t1 t1'
  simp only [Prod.mk.injEq, Builder.mk.injEq, and_true, true_and] at t1 t1'
  refine ⟨?_, ?_, ?_⟩
  · rw [← t1] at t4
    exact t4.congr e1 e2 e3
  · rw [← t1'] at t4'
    exact t4'.congr e1 e2 e3
  · rw [e4, emitTree_span]; exact h7

/-- The machine and the model agree on one copied node. -/
theorem emit_spec {nodes : Slice α} {st : ModState α} {x : Lab α} {k r : Forest (Lab α)}
    {ctx : ECtx α} {n : Nest α} {first : Bool}
    (h : ERel nodes st.output st.refactor st.cursor ctx n) (hx : InSeg nodes (.cons x k r))
    (hf : first = true → n.cur = .nil) (hc : n.count < 2 ^ fl.width - 1) :
    (∀ e, EM.emit fl x k r ctx n = .error e →
      ModState.emit fl nodes st n.count x.id first = .error e) ∧
    (∀ m, EM.emit fl x k r ctx n = .ok m → ∃ st',
      ModState.emit fl nodes st n.count x.id first = .ok st' ∧ EState nodes st' m) := by
  obtain ⟨l, hl, hd, hsp, hlf, hln⟩ := hx.get
  obtain ⟨output, ⟨ps, pv⟩, cursor, current⟩ := st
  simp only at h
  have hpv : first = true → pv = none := fun e => by
    have := h.prev; simp only at this; rw [this, hf e]; rfl
  rw [emit_eq hl hpv]
  have hnx := nodeNext_of hx
  have hnf := nodeFirst_of hx
  obtain ⟨hpar, hout, hps⟩ : cursor = n.cursor ∧ ps.map (·.2) = n.stack.map (·.1.id) ∧
    ps.map (·.1) = ctx.map (·.1.id) := ⟨h.cursor, h.out, h.inp⟩
  subst hpar
  cases k with
  | nil =>
    simp only [headId_nil] at hlf hnf
    simp only [hlf, Option.isNone_none, if_true, hsp, EM.emit]
    cases ha : advance fl.ik n.cursor x.span with
    | none => simp
    | some c =>
      simp only [reduceCtorEq, false_implies, implies_true, true_and, Except.ok.injEq]
      rintro m rfl
      refine ⟨_, rfl, ?_⟩
      obtain ⟨t1, _, t3⟩ := h.emitted (fl := fl) (l := l) (c := c) hc
      rw [hd] at t1
      have hr : ERel nodes (Syntree.emitted fl output ps pv n.count l n.cursor c)
          ⟨ps, some n.count⟩ c ctx ({ n with cursor := c }.addLeaf x.data ⟨n.cursor, c⟩) := by
        refine ⟨t1, hps, ?_, h.segs, ?_, rfl, t3⟩
        · show ps.map (·.2) = (Nest.endParent c n.stack).map (·.1.id)
          rw [hout]; cases n.stack <;> rfl
        · show some n.count = (n.cur ++ _).lastId
          rw [lastId_append]; rfl
      unfold RefactorWalk.step
      rw [hnf, hnx]
      cases r with
      | nil => exact ERel.ascend none ctx hr
      | cons y k' r' => exact ⟨hr, hx.rest, false, rfl, by simp⟩
  | cons y k' r' =>
    simp only [headId_cons] at hlf hnf
    simp only [hlf, Option.isNone_some, Bool.false_eq_true, if_false, EM.emit]
    simp only [reduceCtorEq, false_implies, implies_true, true_and, Except.ok.injEq]
    rintro m rfl
    refine ⟨_, rfl, ?_⟩
    obtain ⟨_, t2, t3⟩ := h.emitted (fl := fl) (l := l) (c := n.cursor) hc
    rw [hd] at t2
    unfold RefactorWalk.step
    rw [hnf]
    refine ⟨⟨t2, ?_, ?_, ?_, rfl, rfl, t3⟩, hx.kids, true, rfl, fun _ => rfl⟩
    · simp [hps]
    · show n.count :: ps.map (·.2) = n.count :: (Nest.endParent n.cursor n.stack).map (·.1.id)
      rw [hout]; cases n.stack <;> rfl
    · intro p hp
      simp only [List.mem_cons] at hp
      rcases hp with rfl | hp
      · exact hx
      · exact h.segs p hp

theorem Nest.shut_count (n : Nest α) : n.shut.count = n.count := by
  unfold Nest.shut; split <;> rfl

theorem Nest.shut_cursor (n : Nest α) : n.shut.cursor = n.cursor := by
  unfold Nest.shut; split <;> rfl

/-- The machine and the model agree. -/
theorem loop_spec {nodes : Slice α} {S : List Nat} : ∀ (fuel : Nat) {st : ModState α} {m : EM α},
    EState nodes st m →
    (∀ e, EM.run fl S fuel m = .error e → ModState.loop fl S nodes fuel st = .error e) ∧
    (∀ n, EM.run fl S fuel m = .ok n → ∃ st', ModState.loop fl S nodes fuel st = .ok st' ∧
      TRep true st'.output n.cur [] n.count ∧ st'.cursor = n.cursor ∧ st'.output.span = ⟨0, 0⟩)
  | 0, st, m, h => by simp [EM.run, ModState.loop]
  | fuel + 1, st, .done n, h => by
    obtain ⟨h1, h2, h3, h4, h5⟩ := h
    simp only [EM.run, ModState.loop, h3]
    refine ⟨by simp, ?_⟩
    intro n' hn
    simp only [Except.ok.injEq] at hn
    subst hn
    exact ⟨st, rfl, h1, h4, h5⟩
  | fuel + 1, st, .at x k r ctx n, h => by
    obtain ⟨h1, h2, first, h3, h4⟩ := h
    have hlen : st.output.len = n.count := h1.tree.len
    simp only [EM.run, ModState.loop, h3, hlen, EM.step]
    rw [ptrNew_eq]
    by_cases hc : n.count < 2 ^ fl.width - 1
    rotate_left
    · have hf : n.full fl = true := full_iff.2 hc
      rw [if_neg hc, if_pos hf]; simp
    · have hnf : ¬ (n.full fl = true) := not_full_iff.2 hc
      rw [if_pos hc, if_neg hnf]
      simp only
      by_cases hS : n.count ∈ S
      · rw [if_pos hS, if_pos hS]
        have hnx := nodeNext_of h2
        unfold RefactorWalk.skipSubtree
        rw [hnx]
        cases r with
        | cons y k' r' =>
          simp only [headId_cons]
          have hs := emit_spec (fl := fl) (st := ⟨st.output, st.refactor, st.cursor, some (x.id, first)⟩) (first := first) h1 h2.rest h4 hc
          cases he : EM.emit fl y k' r' ctx n with
          | error e => simp only [hs.1 e he, Except.error.injEq, reduceCtorEq, false_implies, implies_true, and_true, imp_self]
          | ok m =>
            obtain ⟨st', e', hst⟩ := hs.2 m he
            simp only [e']
            exact loop_spec fuel hst
        | nil =>
          simp only [headId_nil]
          have hinp := h1.inp
          cases ctx with
          | nil =>
            have hp : st.refactor.parents = [] := by
              cases hp : st.refactor.parents with
              | nil => rfl
              | cons => rw [hp] at hinp; simp at hinp
            rw [hp]
            simp only
            refine loop_spec fuel ?_
            have hs : n.stack = [] := by
              have := h1.out
              rw [hp] at this
              cases hs : n.stack with
              | nil => rfl
              | cons => rw [hs] at this; simp at this
            have ht := h1.tree
            rw [hs] at ht
            exact ⟨ht, hs, rfl, h1.cursor, h1.span⟩
          | cons p ctx =>
            obtain ⟨p, K, R⟩ := p
            cases hp : st.refactor.parents with
            | nil => rw [hp] at hinp; simp at hinp
            | cons q ps =>
              obtain ⟨a, b⟩ := q
              have hq : a = p.id := by
                rw [hp] at hinp
                simp only [List.map_cons, List.cons.injEq] at hinp
                exact hinp.1
              subst hq
              simp only
              have h1' : ERel nodes st.output ⟨(p.id, b) :: ps, st.refactor.prev⟩ st.cursor
                  ((p, K, R) :: ctx) n := by
                have := h1
                cases hr : st.refactor with
                | mk parents prev =>
                  rw [hr] at this hp
                  simp only at hp
                  subst hp
                  exact this
              have hs := emit_spec (fl := fl) (st := ⟨st.output, ⟨ps, some b⟩, st.cursor, some (x.id, first)⟩) (first := false)
                h1'.shut (h1.segs (p, K, R) (by simp)) (by simp) (by rw [n.shut_count]; exact hc)
              rw [n.shut_count] at hs
              cases he : EM.emit fl p K R ctx n.shut with
              | error e => simp only [hs.1 e he, Except.error.injEq, reduceCtorEq, false_implies, implies_true, and_true, imp_self]
              | ok m =>
                obtain ⟨st', e', hst⟩ := hs.2 m he
                simp only [e']
                exact loop_spec fuel hst
      · rw [if_neg hS, if_neg hS]
        have hs := emit_spec (fl := fl) (first := first) h1 h2 h4 hc
        cases he : EM.emit fl x k r ctx n with
        | error e => simp only [hs.1 e he, Except.error.injEq, reduceCtorEq, false_implies, implies_true, and_true, imp_self]
        | ok m =>
          obtain ⟨st', e', hst⟩ := hs.2 m he
          simp only [e']
          exact loop_spec fuel hst

/-- `modify` as the machine. -/
def ChangeSet.machine (fl : Flavor) (c : ChangeSet) (F : Forest (Lab α)) : Except Err (Nest α) :=
  EM.run fl c.changes ((c.changes.length + 1) * (F.size + 1) + 1) (EM.goto F [] Nest.init)

/-- The first state. -/
theorem modify_start {t : Tree α} {F : Forest (Lab α)} (hseg : InSeg t.nodes F)
    (hfirst : t.firstNode = F.headId) :
    EState t.nodes (⟨Tree.empty, ⟨[], none⟩, 0, t.firstNode.map (·, false)⟩ : ModState α)
      (EM.goto F [] Nest.init) := by
  have ht : TRep true (Tree.empty : Tree α) .nil [] 0 :=
    ⟨trivial, ⟨rfl, LastRel.nil⟩, by simp [stackIds], rfl⟩
  cases F with
  | nil =>
    rw [hfirst]
    exact ⟨ht, rfl, rfl, rfl, rfl⟩
  | cons x k r =>
    rw [hfirst]
    refine ⟨⟨ht, rfl, rfl, by simp, rfl, rfl, rfl⟩, hseg, false, rfl, by simp⟩

/-- `modify` of a tree whose links to first children and next siblings are those of `F`. -/
theorem modify_loop {t : Tree α} {F : Forest (Lab α)} (hseg : InSeg t.nodes F)
    (hfirst : t.firstNode = F.headId) (c : ChangeSet) :
    (∀ e, EM.run fl c.changes ((c.changes.length + 1) * (t.nodes.length + 1) + 1)
        (EM.goto F [] Nest.init) = .error e → c.modify fl t = .error e) ∧
    (∀ n, EM.run fl c.changes ((c.changes.length + 1) * (t.nodes.length + 1) + 1)
        (EM.goto F [] Nest.init) = .ok n → ∃ t', c.modify fl t = .ok t' ∧
      Represents true t' n.cur ∧ t'.span = ⟨0, n.cursor⟩ ∧ t'.len = n.count) := by
  unfold ChangeSet.modify
  have hst := modify_start hseg hfirst
  obtain ⟨h1, h2⟩ := loop_spec (fl := fl) (S := c.changes)
    ((c.changes.length + 1) * (t.nodes.length + 1) + 1) hst
  refine ⟨fun e he => by simp only [h1 e he], ?_⟩
  intro n hn
  obtain ⟨st', e1, e2, e3, e4⟩ := h2 n hn
  simp only [e1]
  refine ⟨_, rfl, ?_, ?_, e2.len⟩
  · have := e2.len
    rw [Represents]
    exact (this ▸ e2).congr rfl rfl rfl
  · simp only [e4, e3]

theorem modify_spec {t : Tree α} {F : Forest (Lab α)} (h : Represents false t F) (c : ChangeSet) :
    (∀ e, c.machine fl F = .error e → c.modify fl t = .error e) ∧
    (∀ n, c.machine fl F = .ok n → ∃ t', c.modify fl t = .ok t' ∧ Represents true t' n.cur ∧
      t'.span = ⟨0, n.cursor⟩ ∧ t'.len = n.count) := by
  unfold ChangeSet.machine
  rw [h.size]
  exact modify_loop h.root.half h.tree_first c

end Syntree
