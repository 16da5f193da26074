import Verif.Proof.Own
import Verif.Spec.Clone

/-! A builder that does not share a checkpoint that can still change behaves as if it was alone. -/

namespace Syntree

variable {α : Type} {fl : Flavor}

/-- Another cached checkpoint. -/
def Builder.ck (b : Builder α) (c : Option Nat) : Builder α := { b with checkpoint := c }

theorem insert_ck (b : Builder α) (c : Option Nat) (d : α) (sp : Span) :
    (b.ck c).insert fl d sp = ((b.insert fl d sp).1.ck c, (b.insert fl d sp).2) := by
  unfold Builder.insert
  simp only [Builder.ck]
  cases ptrNew fl.width b.tree.len <;> rfl

theorem openWith_ck (b : Builder α) (c : Option Nat) (d : α) (sp : Span) :
    (b.ck c).openWith fl d sp = ((b.openWith fl d sp).1.ck c, (b.openWith fl d sp).2) := by
  unfold Builder.openWith
  rw [insert_ck]
  rcases b.insert fl d sp with ⟨b', _ | _⟩ <;> rfl

theorem open_ck (b : Builder α) (c : Option Nat) (d : α) :
    (b.ck c).open fl d = ((b.open fl d).1.ck c, (b.open fl d).2) :=
  openWith_ck b c d _

theorem close_ck (b : Builder α) (c : Option Nat) :
    (b.ck c).close = (b.close.1.ck c, b.close.2) := by
  obtain ⟨t, ck, pa, sib, cur⟩ := b
  unfold Builder.close
  simp only [Builder.ck]
  cases pa with
  | none => rfl
  | some head =>
    simp only
    cases t.nodes[head]? with
    | none => rfl
    | some links =>
      simp only
      cases links.parent with
      | none => rfl
      | some id =>
        simp only
        by_cases hi : id < t.len
        · exact (if_pos hi).trans (by rw [if_pos hi])
        · exact (if_neg hi).trans (by rw [if_neg hi])

theorem token_ck (b : Builder α) (c : Option Nat) (d : α) (n : Nat) :
    (b.ck c).token fl d n = ((b.token fl d n).1.ck c, (b.token fl d n).2) := by
  unfold Builder.token
  by_cases he : fl.ik.lenIsEmpty n = true
  · simp only [he, if_true]
    rw [insert_ck]
    simp only [Builder.ck]
    rcases b.insert fl d (Span.new b.cursor b.cursor) with ⟨b', _ | _⟩ <;> rfl
  · simp only [if_neg he]
    simp only [show (b.ck c).cursor = b.cursor from rfl]
    cases fl.ik.checkedAddLen b.cursor n with
    | none => rfl
    | some x =>
      simp only
      have := insert_ck (fl := fl) { b with
          cursor := x, tree := { b.tree with span := { b.tree.span with stop := x } } } c d
          (Span.new b.cursor x)
      simp only [Builder.ck] at this ⊢
      rw [this]
      rcases Builder.insert fl { b with
          cursor := x, tree := { b.tree with span := { b.tree.span with stop := x } } } d
          (Span.new b.cursor x) with ⟨b', _ | _⟩ <;> rfl

theorem tokenWith_ck (b : Builder α) (c : Option Nat) (d : α) (sp : Span) :
    (b.ck c).tokenWith fl d sp = ((b.tokenWith fl d sp).1.ck c, (b.tokenWith fl d sp).2) := by
  unfold Builder.tokenWith
  rw [insert_ck]
  rcases b.insert fl d sp with ⟨b', _ | _⟩ <;> rfl

/-- An update of a cell, or none. -/
def upd (cells : Cells) (c : Nat) : Option Cell → Cells
  | none => cells
  | some y => cells.set c y

theorem closeAtCore_ck (b : Builder α) (ck : Option Nat) (cells cells' : Cells) (c c' : Nat)
    (h : cells'[c']? = cells[c]?) (d : α) (e : Option Span) :
    ∃ y, (b.closeAtCore fl cells c d e).1 = upd cells c y ∧
      ((b.ck ck).closeAtCore fl cells' c' d e).1 = upd cells' c' y ∧
      ((b.ck ck).closeAtCore fl cells' c' d e).2 =
        ((b.closeAtCore fl cells c d e).2.1.ck ck, (b.closeAtCore fl cells c d e).2.2) := by
  unfold Builder.closeAtCore
  rw [h]
  cases cells[c]? with
  | none => exact ⟨none, rfl, rfl, rfl⟩
  | some cell =>
    simp only
    simp only [show (b.ck ck).parent = b.parent from rfl, show (b.ck ck).tree = b.tree from rfl,
      show (b.ck ck).cursor = b.cursor from rfl]
    by_cases hp : cell.parent ≠ b.parent
    · rw [if_pos hp, if_pos hp]; exact ⟨none, rfl, rfl, rfl⟩
    · rw [if_neg hp, if_neg hp]
      cases ptrNew fl.width b.tree.len with
      | none => exact ⟨none, rfl, rfl, rfl⟩
      | some newId =>
        simp only
        cases b.tree.nodes[cell.node]? with
        | none =>
          simp only
          rw [insert_ck]
          rcases b.insert fl d (e.getD (Span.point b.cursor)) with ⟨b', _ | i⟩
          · exact ⟨none, rfl, rfl, rfl⟩
          · simp only
            by_cases hi : i ≠ cell.node
            · rw [if_pos hi, if_pos hi]; exact ⟨none, rfl, rfl, rfl⟩
            · rw [if_neg hi, if_neg hi]; exact ⟨none, rfl, rfl, rfl⟩
        | some links =>
          simp only
          rcases reparent newId cell.node links b.tree.nodes with ⟨nodes, _ | ⟨last, span⟩⟩
          · exact ⟨none, rfl, rfl, rfl⟩
          · exact ⟨some ⟨newId, links.parent⟩, rfl, rfl, rfl⟩

/-! ## Nodes are never removed -/

theorem insert_len_le (b : Builder α) (d : α) (sp : Span) :
    b.tree.len ≤ (b.insert fl d sp).1.tree.len := by
  unfold Builder.insert
  cases ptrNew fl.width b.tree.len with
  | none => exact Nat.le_refl _
  | some new =>
    simp only [Tree.len, modifyOpt_nodes]
    cases b.sibling <;> cases b.parent <;>
      simp [Tree.push, Tree.modifyNode, Tree.addRoot]

theorem restructure_len (p : Nat) : ∀ (fuel : Nat) (nodes : List (Links α)) (cur : Nat),
    (restructure p fuel nodes cur).1.length = nodes.length
  | 0, _, _ => rfl
  | fuel + 1, nodes, cur => by
    simp only [restructure]
    cases nodes[cur]? with
    | none => rfl
    | some l =>
      simp only
      cases l.next with
      | none => simp
      | some next => simp only; rw [restructure_len p fuel]; simp

theorem reparent_len (newId id : Nat) (links : Links α) (nodes : List (Links α)) :
    (reparent newId id links nodes).1.length = nodes.length := by
  unfold reparent
  cases links.next with
  | none => simp
  | some next =>
    simp only
    generalize hn : nodes.set id _ = ns
    have e : ns.length = nodes.length := by rw [← hn]; simp
    have := restructure_len newId (ns.length + 1) ns next
    rcases hh : restructure newId (ns.length + 1) ns next with ⟨n', _ | _⟩ <;> rw [hh] at this <;>
      exact this.trans e

theorem closeAtCore_len_le (b : Builder α) (cells : Cells) (c : Nat) (d : α) (e : Option Span) :
    b.tree.len ≤ (b.closeAtCore fl cells c d e).2.1.tree.len := by
  unfold Builder.closeAtCore
  cases cells[c]? with
  | none => exact Nat.le_refl _
  | some cell =>
    simp only
    split
    · exact Nat.le_refl _
    · cases ptrNew fl.width b.tree.len with
      | none => exact Nat.le_refl _
      | some newId =>
        simp only
        cases b.tree.nodes[cell.node]? with
        | none =>
          simp only
          have := insert_len_le (fl := fl) b d (e.getD (Span.point b.cursor))
          rcases hh : b.insert fl d (e.getD (Span.point b.cursor)) with ⟨b', _ | i⟩ <;>
            rw [hh] at this
          · exact this
          · simp only; split <;> exact this
        | some links =>
          simp only
          have := reparent_len newId cell.node links b.tree.nodes
          rcases hh : reparent newId cell.node links b.tree.nodes with ⟨nodes, _ | ⟨last, span⟩⟩ <;>
            rw [hh] at this <;> simp only at this
          · simp only [Tree.len, this]; exact Nat.le_refl _
          · obtain ⟨f, g, _, _, hr⟩ := relink_nodes { b.tree with nodes := nodes } cell.node newId
              links.parent links.prev
              { data := d, span := e.getD span, prev := links.prev, parent := links.parent,
                next := none, first := some cell.node, last := some last }
            simp only [Tree.len, hr, modifyOpt_nodes]
            cases links.parent <;> cases links.prev <;> simp [this]

theorem Sys.step_len_le (s : Sys α) (op : Op α) : s.b.tree.len ≤ (s.step fl op).1.b.tree.len := by
  have hO : ∀ d sp, s.b.tree.len ≤ (s.b.openWith fl d sp).1.tree.len := by
    intro d sp
    have := insert_len_le (fl := fl) s.b d sp
    unfold Builder.openWith
    rcases hh : s.b.insert fl d sp with ⟨b', _ | _⟩ <;> rw [hh] at this <;> exact this
  have hT : ∀ d n, s.b.tree.len ≤ (s.b.token fl d n).1.tree.len := by
    intro d n
    unfold Builder.token
    by_cases he : fl.ik.lenIsEmpty n = true
    · simp only [he, if_true]
      have := insert_len_le (fl := fl) s.b d (Span.new s.b.cursor s.b.cursor)
      rcases hh : s.b.insert fl d (Span.new s.b.cursor s.b.cursor) with ⟨b', _ | _⟩ <;>
        rw [hh] at this <;> exact this
    · simp only [if_neg he]
      cases fl.ik.checkedAddLen s.b.cursor n with
      | none => exact Nat.le_refl _
      | some x =>
        simp only
        have := insert_len_le (fl := fl) { s.b with
          cursor := x, tree := { s.b.tree with span := { s.b.tree.span with stop := x } } } d
          (Span.new s.b.cursor x)
        rcases hh : Builder.insert fl { s.b with
          cursor := x, tree := { s.b.tree with span := { s.b.tree.span with stop := x } } } d
          (Span.new s.b.cursor x) with ⟨b', _ | _⟩ <;> rw [hh] at this
        · exact this
        · simp only [Tree.len, pushIndex_nodes]; exact this
  cases op with
  | «open» d => exact hO d _
  | openWith d sp => exact hO d sp
  | close =>
    simp only [Sys.step, Sys.lift, Builder.close]
    cases s.b.parent with
    | none => exact Nat.le_refl _
    | some head =>
      simp only
      cases s.b.tree.nodes[head]? with
      | none => exact Nat.le_refl _
      | some links =>
        simp only
        cases links.parent with
        | none => exact Nat.le_refl _
        | some id =>
          simp only; split
          · simp [Tree.len, Tree.modifyNode]
          · exact Nat.le_refl _
  | token d n => exact hT d n
  | tokenEmpty d => exact hT d 0
  | tokenWith d sp =>
    simp only [Sys.step, Sys.lift, Builder.tokenWith]
    have := insert_len_le (fl := fl) s.b d sp
    rcases hh : s.b.insert fl d sp with ⟨b', _ | i⟩ <;> rw [hh] at this
    · exact this
    · simp only [Tree.len, modifyOpt_nodes, pushIndex_nodes]
      cases b'.parent <;> simpa [Tree.len] using this
  | checkpoint =>
    simp only [Sys.step]
    have : (s.b.mkCheckpoint fl s.cells).2.1.tree = s.b.tree := by
      unfold Builder.mkCheckpoint
      cases ptrNew fl.width s.b.tree.len with
      | none => rfl
      | some node =>
        simp only
        cases s.b.checkpoint with
        | none => rfl
        | some c =>
          simp only
          cases s.cells[c]? with
          | none => rfl
          | some cell => simp only; split <;> rfl
    rcases hh : s.b.mkCheckpoint fl s.cells with ⟨cs, b', _ | i⟩ <;> rw [hh] at this <;>
      simp only at this <;> simp [this]
  | closeAt k d =>
    simp only [Sys.step]
    cases s.handles[k]? with
    | none => exact Nat.le_refl _
    | some c => exact closeAtCore_len_le _ _ _ _ _
  | closeAtWith k d sp =>
    simp only [Sys.step]
    cases s.handles[k]? with
    | none => exact Nat.le_refl _
    | some c => exact closeAtCore_len_le _ _ _ _ _
  | setCursor i => exact Nat.le_refl _

/-! ## The simulation -/

/-- A cell that a builder uses: one it made since the start, or one of those from before the start
that are for it. -/
def Mine (C : Cells) (U : Nat → Prop) (c : Nat) : Prop := C.length ≤ c ∨ U c

/-- The system `S` (a builder of a world) behaves like the lone system `s`. `φ` maps the cells of
`s` to the cells of `S`; `C` are the cells at the start. Of these the builder uses those in `U`, and
those in `K` are used by nobody (but can be the cached checkpoint, if out of date). `ow` are the
numbers in `S` of the checkpoints of `s`. -/
structure Track (C : Cells) (U K : Nat → Prop) (S : Sys α) (ow : List Nat) (s : Sys α)
    (φ : Nat → Nat) : Prop where
  bld : S.b = s.b.ck (s.b.checkpoint.map φ)
  low : ∀ c, c < C.length → φ c = c
  kept : ∀ c, c < C.length → K c → s.cells[c]? = C[c]? ∧ S.cells[c]? = C[c]?
  apart : ∀ c, K c → ¬ U c
  high : ∀ c, Mine C U c → c < s.cells.length →
    (C.length ≤ c → C.length ≤ φ c) ∧ S.cells[φ c]? = s.cells[c]?
  inj : ∀ c c', c < s.cells.length → c' < s.cells.length → φ c = φ c' → c = c'
  len : C.length ≤ s.cells.length ∧ C.length ≤ S.cells.length
  hnd : ow.map (fun g => S.handles[g]?) = s.handles.map (fun c => some (φ c))
  new : ∀ c ∈ s.handles, Mine C U c ∧ c < s.cells.length
  cached : ∀ c, s.b.checkpoint = some c → (C.length ≤ c ∧ c < s.cells.length) ∨
    (c < C.length ∧ K c ∧ ∃ cell, C[c]? = some cell ∧ cell.node < s.b.tree.len)

/-- The number of a checkpoint as seen by its builder. -/
def locally (ow : List Nat) : Except Err Out → Except Err Out × List Nat
  | .ok (.handle g) => (.ok (.handle ow.length), ow ++ [g])
  | o => (o, ow)

/-- What a step of `S` leaves alone. -/
structure Frame (C : Cells) (U : Nat → Prop) (S S' : Sys α) (s s' : Sys α) (φ φ' : Nat → Nat) :
    Prop where
  old : ∀ c, c < s.cells.length → φ' c = φ c
  fresh : ∀ c, s.cells.length ≤ c → c < s'.cells.length → S.cells.length ≤ φ' c
  cells : ∀ x, x < S.cells.length →
    (∀ c, Mine C U c → c < s.cells.length → φ c ≠ x) → S'.cells[x]? = S.cells[x]?
  more : S.cells.length ≤ S'.cells.length ∧ s.cells.length ≤ s'.cells.length
  handles : ∀ g : Nat, g < S.handles.length → S'.handles[g]? = S.handles[g]?

theorem Frame.same {C : Cells} {U : Nat → Prop} {S S' s s' : Sys α} {φ : Nat → Nat} (h1 : S'.cells = S.cells)
    (h2 : s'.cells = s.cells) (h3 : S'.handles = S.handles) : Frame C U S S' s s' φ φ := by
  constructor
  · intros; rfl
  · intro c h h'; rw [h2] at h'; omega
  · intros; rw [h1]
  · rw [h1, h2]; exact ⟨Nat.le_refl _, Nat.le_refl _⟩
  · intros; rw [h3]

theorem Track.same {C : Cells} {U K : Nat → Prop} {S s : Sys α} {ow : List Nat} {φ : Nat → Nat}
    (h : Track C U K S ow s φ) {b B : Builder α} (hb : B = b.ck (s.b.checkpoint.map φ))
    (hc : b.checkpoint = s.b.checkpoint) (hl : s.b.tree.len ≤ b.tree.len) :
    Track C U K { S with b := B } ow { s with b := b } φ where
  bld := by rw [hb, ← hc]
  low := h.low
  kept := h.kept
  apart := h.apart
  high := h.high
  inj := h.inj
  len := h.len
  hnd := h.hnd
  new := h.new
  cached := by
    intro c e
    rcases h.cached c (hc ▸ e) with h' | ⟨h1, hK, cell, h2, h3⟩
    · exact .inl h'
    · exact .inr ⟨h1, hK, cell, h2, Nat.lt_of_lt_of_le h3 hl⟩

theorem lift_locally {s : Sys α} {ow : List Nat} {β : Type} (f : β → Out) (r : Res α β)
    (hf : ∀ x g, f x ≠ .handle g) : locally ow (s.lift f r).2 = ((s.lift f r).2, ow) := by
  obtain ⟨b, _ | x⟩ := r
  · rfl
  · simp only [Sys.lift, Except.map, locally]
    cases hx : f x with
    | handle g => exact absurd hx (hf x g)
    | id i => rfl
    | unit => rfl

theorem ck_checkpoint {b b' : Builder α} (h : b'.ck b.checkpoint = b') :
    b'.checkpoint = b.checkpoint := by
  rw [← h]; rfl

/-- A call that neither takes nor uses a checkpoint. -/
theorem Track.plain {C : Cells} {U K : Nat → Prop} {S s : Sys α} {ow : List Nat} {φ : Nat → Nat} {op : Op α}
    (h : Track C U K S ow s φ) {β : Type} (f : β → Out) (m : Builder α → Res α β)
    (hf : ∀ x g, f x ≠ .handle g)
    (hm : ∀ b c, m (b.ck c) = ((m b).1.ck c, (m b).2))
    (e : ∀ S : Sys α, S.step fl op = S.lift f (m S.b)) :
    ∃ φ', Track C U K (S.step fl op).1 (locally ow (S.step fl op).2).2 (s.step fl op).1 φ' ∧
      (locally ow (S.step fl op).2).1 = (s.step fl op).2 ∧
      Frame C U S (S.step fl op).1 s (s.step fl op).1 φ φ' := by
  have hl := Sys.step_len_le (fl := fl) s op
  have hk : (m s.b).1.checkpoint = s.b.checkpoint := by
    have := hm s.b s.b.checkpoint
    rw [show s.b.ck s.b.checkpoint = s.b from rfl] at this
    exact ck_checkpoint (congrArg Prod.fst this).symm
  have hb : m S.b = ((m s.b).1.ck (s.b.checkpoint.map φ), (m s.b).2) := by rw [h.bld, hm]
  rw [e S, e s, lift_locally f _ hf] at *
  refine ⟨φ, h.same (by rw [hb]) hk hl, ?_, Frame.same rfl rfl rfl⟩
  simp only [Sys.lift, hb]

theorem getElem?_upd {cells : Cells} {c x : Nat} {y : Option Cell} (h : x ≠ c) :
    (upd cells c y)[x]? = cells[x]? := by
  cases y with
  | none => rfl
  | some y => simp only [upd]; rw [List.getElem?_set_ne (fun e => h e.symm)]

theorem getElem?_upd_self {cells cells' : Cells} {c c' : Nat} {y : Option Cell}
    (h : cells[c]? = cells'[c']?) : (upd cells c y)[c]? = (upd cells' c' y)[c']? := by
  cases y with
  | none => exact h
  | some y =>
    simp only [upd, List.getElem?_set_self']
    rw [h]

theorem upd_length (cells : Cells) (c : Nat) (y : Option Cell) :
    (upd cells c y).length = cells.length := by
  cases y <;> simp [upd]

theorem closeAtCore_checkpoint (b : Builder α) (cells : Cells) (c : Nat) (d : α)
    (e : Option Span) : (b.closeAtCore fl cells c d e).2.1.checkpoint = b.checkpoint := by
  obtain ⟨_, _, _, h⟩ := closeAtCore_ck (fl := fl) b b.checkpoint cells cells c c rfl d e
  exact ck_checkpoint (congrArg Prod.fst h).symm

/-- A call that uses a checkpoint. -/
theorem Track.closeAt {C : Cells} {U K : Nat → Prop} {S s : Sys α} {ow : List Nat} {φ : Nat → Nat}
    (h : Track C U K S ow s φ) {c : Nat} (hc : c ∈ s.handles) (d : α) (e : Option Span)
    {r : Cells × Res α Nat} (hr : s.b.closeAtCore fl s.cells c d e = r)
    {R : Cells × Res α Nat} (hR : S.b.closeAtCore fl S.cells (φ c) d e = R) :
    Track C U K ⟨R.2.1, R.1, S.handles⟩ ow ⟨r.2.1, r.1, s.handles⟩ φ ∧ R.2.2 = r.2.2 ∧
      Frame C U S ⟨R.2.1, R.1, S.handles⟩ s ⟨r.2.1, r.1, s.handles⟩ φ φ := by
  obtain ⟨c1, c2⟩ := h.new c hc
  obtain ⟨c3, c4⟩ := h.high c c1 c2
  obtain ⟨y, y1, y2, y3⟩ := closeAtCore_ck (fl := fl) s.b (s.b.checkpoint.map φ) s.cells S.cells c
    (φ c) c4 d e
  have hk := closeAtCore_checkpoint (fl := fl) s.b s.cells c d e
  have hl := closeAtCore_len_le (fl := fl) s.b s.cells c d e
  rw [← h.bld, hR] at y2 y3
  rw [hr] at y1 y3 hk hl
  obtain ⟨rc, rb, ro⟩ := r
  obtain ⟨Rc, Rb, Ro⟩ := R
  simp only at *
  subst y1 y2
  simp only [Prod.mk.injEq] at y3
  obtain ⟨rfl, rfl⟩ := y3
  have hxc : ∀ x, x < C.length → K x → x ≠ c ∧ x ≠ φ c := by
    intro x hx hK
    rcases c1 with c1 | c1
    · have := c3 c1; omega
    · constructor
      · rintro rfl; exact h.apart _ hK c1
      · intro e
        by_cases hC : c < C.length
        · rw [h.low c hC] at e; subst e; exact h.apart _ hK c1
        · have := c3 (by omega); omega
  refine ⟨⟨?_, h.low, ?_, h.apart, ?_, ?_, ?_, h.hnd, ?_, ?_⟩, rfl, ?_⟩
  · simp only [hk]
  · intro x hx hK
    obtain ⟨a2, a3⟩ := h.kept x hx hK
    obtain ⟨n1, n2⟩ := hxc x hx hK
    refine ⟨?_, ?_⟩
    · simp only; rw [getElem?_upd n1]; exact a2
    · simp only; rw [getElem?_upd n2]; exact a3
  · intro x hx hx'
    simp only [upd_length] at hx' ⊢
    obtain ⟨a1, a2⟩ := h.high x hx hx'
    refine ⟨a1, ?_⟩
    by_cases hxc : x = c
    · subst hxc; exact getElem?_upd_self c4
    · rw [getElem?_upd hxc, getElem?_upd (fun e => hxc (h.inj _ _ hx' c2 e))]; exact a2
  · intro x x' hx hx'
    simp only [upd_length] at hx hx'
    exact h.inj x x' hx hx'
  · simp only [upd_length]; exact h.len
  · simp only [upd_length]; exact h.new
  · intro x hx
    simp only [upd_length] at hx ⊢
    rcases h.cached x (by rw [← hk]; exact hx) with h' | ⟨h1, hK, cell, h2, h3⟩
    · exact .inl h'
    · exact .inr ⟨h1, hK, cell, h2, Nat.lt_of_lt_of_le h3 hl⟩
  · constructor
    · intros; rfl
    · intro x hx hx'; simp only [upd_length] at hx'; omega
    · intro x _ hne; simp only; exact getElem?_upd (fun e => hne c c1 c2 e.symm)
    · simp only [upd_length]; exact ⟨Nat.le_refl _, Nat.le_refl _⟩
    · intros; rfl

theorem Track.hand {C : Cells} {U K : Nat → Prop} {S s : Sys α} {ow : List Nat} {φ : Nat → Nat}
    (h : Track C U K S ow s φ) {c : Nat} (h1 : Mine C U c) (h2 : c < s.cells.length) :
    Track C U K ⟨S.b, S.cells, S.handles ++ [φ c]⟩ (ow ++ [S.handles.length])
      ⟨s.b, s.cells, s.handles ++ [c]⟩ φ := by
  refine ⟨h.bld, h.low, h.kept, h.apart, h.high, h.inj, h.len, ?_, ?_, h.cached⟩
  · simp only [List.map_append, List.map_cons, List.map_nil, List.getElem?_concat_length]
    congr 1
    rw [← h.hnd]
    apply List.map_congr_left
    intro g hg
    have hm : S.handles[g]? ∈ s.handles.map (fun c => some (φ c)) := by
      rw [← h.hnd]; exact List.mem_map.2 ⟨g, hg, rfl⟩
    obtain ⟨x, _, hx⟩ := List.mem_map.1 hm
    rw [List.getElem?_append_left (get_lt hx.symm)]
  · intro x hx
    simp only [List.mem_append, List.mem_singleton] at hx
    rcases hx with hx | rfl
    · exact h.new x hx
    · exact ⟨h1, h2⟩

theorem Track.ow_length {C : Cells} {U K : Nat → Prop} {S s : Sys α} {ow : List Nat} {φ : Nat → Nat}
    (h : Track C U K S ow s φ) : ow.length = s.handles.length := by
  have := congrArg List.length h.hnd
  simpa using this

/-- A new cell. -/
theorem Track.cell {C : Cells} {U K : Nat → Prop} {S s : Sys α} {ow : List Nat} {φ : Nat → Nat}
    (h : Track C U K S ow s φ) (cell : Cell) :
    Track C U K ⟨S.b.ck (some S.cells.length), S.cells ++ [cell], S.handles⟩ ow
      ⟨s.b.ck (some s.cells.length), s.cells ++ [cell], s.handles⟩
      (fun x => if x = s.cells.length then S.cells.length else φ x) := by
  obtain ⟨l1, l2⟩ := h.len
  have hφ : ∀ x, x < s.cells.length → φ x < S.cells.length := by
    intro x hx
    by_cases hC : x < C.length
    · rw [h.low x hC]; omega
    · have := (h.high x (.inl (by omega)) hx).2
      rw [List.getElem?_eq_getElem hx] at this
      exact get_lt this
  constructor
  · simp only [Builder.ck, Option.map_some, if_true]
    rw [h.bld]; rfl
  · intro c hc
    rw [if_neg (by omega)]; exact h.low c hc
  · intro c hc hK
    simp only
    rw [List.getElem?_append_left (by omega), List.getElem?_append_left (by omega)]
    exact h.kept c hc hK
  · exact h.apart
  · intro c hc hc'
    simp only [List.length_append, List.length_cons, List.length_nil] at hc' ⊢
    by_cases hx : c = s.cells.length
    · rw [if_pos hx, hx]
      refine ⟨fun _ => l2, ?_⟩
      simp
    · rw [if_neg hx]
      obtain ⟨a1, a2⟩ := h.high c hc (by omega)
      refine ⟨a1, ?_⟩
      rw [List.getElem?_append_left (hφ c (by omega)), List.getElem?_append_left (by omega)]
      exact a2
  · intro c c' hc hc' e
    simp only [List.length_append, List.length_cons, List.length_nil] at hc hc' e
    by_cases hx : c = s.cells.length <;> by_cases hx' : c' = s.cells.length
    · omega
    · rw [if_pos hx, if_neg hx'] at e
      have := hφ c' (by omega); omega
    · rw [if_neg hx, if_pos hx'] at e
      have := hφ c (by omega); omega
    · rw [if_neg hx, if_neg hx'] at e
      exact h.inj c c' (by omega) (by omega) e
  · simp only [List.length_append, List.length_cons, List.length_nil]; omega
  · simp only
    rw [h.hnd]
    apply List.map_congr_left
    intro c hc
    rw [if_neg (by have := (h.new c hc).2; omega)]
  · intro c hc
    have := h.new c hc
    simp only [List.length_append, List.length_cons, List.length_nil]
    exact ⟨this.1, by omega⟩
  · intro c hc
    simp only [Builder.ck, Option.some.injEq] at hc
    left
    simp only [List.length_append, List.length_cons, List.length_nil]; omega

theorem Track.fresh {C : Cells} {U K : Nat → Prop} {S s : Sys α} {ow : List Nat} {φ : Nat → Nat}
    (h : Track C U K S ow s φ) (cell : Cell) :
    ∃ φ', Track C U K ⟨S.b.ck (some S.cells.length), S.cells ++ [cell], S.handles ++ [S.cells.length]⟩
        (ow ++ [S.handles.length])
        ⟨s.b.ck (some s.cells.length), s.cells ++ [cell], s.handles ++ [s.cells.length]⟩ φ' ∧
      Frame C U S
        ⟨S.b.ck (some S.cells.length), S.cells ++ [cell], S.handles ++ [S.cells.length]⟩ s
        ⟨s.b.ck (some s.cells.length), s.cells ++ [cell], s.handles ++ [s.cells.length]⟩ φ φ' := by
  have h' := (h.cell cell).hand (c := s.cells.length) (.inl h.len.1) (by simp)
  simp only [if_true] at h'
  refine ⟨_, h', ?_⟩
  constructor
  · intro c hc; exact if_neg (by omega)
  · intro c hc hc'
    simp only [List.length_append, List.length_cons, List.length_nil] at hc' ⊢
    rw [if_pos (by omega)]; omega
  · intro x hx _; simp only; rw [List.getElem?_append_left hx]
  · simp
  · intro g hg; simp only; rw [List.getElem?_append_left hg]

theorem ptrNew_some {w n p : Nat} (h : ptrNew w n = some p) : p = n := by
  rw [ptrNew_eq] at h
  split at h <;> simp_all

theorem Track.checkpoint {C : Cells} {U K : Nat → Prop} {S s : Sys α} {ow : List Nat} {φ : Nat → Nat}
    (h : Track C U K S ow s φ) :
    ∃ φ', Track C U K (S.step fl .checkpoint).1 (locally ow (S.step fl .checkpoint).2).2
        (s.step fl .checkpoint).1 φ' ∧
      (locally ow (S.step fl .checkpoint).2).1 = (s.step fl .checkpoint).2 ∧
      Frame C U S (S.step fl .checkpoint).1 s (s.step fl .checkpoint).1 φ φ' := by
  have hp : S.b.parent = s.b.parent := by rw [h.bld]; rfl
  have ht : S.b.tree = s.b.tree := by rw [h.bld]; rfl
  have hk : S.b.checkpoint = s.b.checkpoint.map φ := by rw [h.bld]; rfl
  cases hn : ptrNew fl.width s.b.tree.len with
  | none =>
    simp only [Sys.step, Builder.mkCheckpoint, ht, hn]
    exact ⟨φ, h, rfl, Frame.same rfl rfl rfl⟩
  | some node =>
    have hnode := ptrNew_some hn
    have key : (∃ c, s.b.checkpoint = some c ∧ s.b.mkCheckpoint fl s.cells = (s.cells, s.b, .ok c) ∧
        S.b.mkCheckpoint fl S.cells = (S.cells, S.b, .ok (φ c)) ∧ C.length ≤ c ∧ c < s.cells.length) ∨
        (s.b.mkCheckpoint fl s.cells = (s.cells ++ [⟨node, s.b.parent⟩],
          s.b.ck (some s.cells.length), .ok s.cells.length) ∧
        S.b.mkCheckpoint fl S.cells = (S.cells ++ [⟨node, s.b.parent⟩],
          S.b.ck (some S.cells.length), .ok S.cells.length)) := by
      rw [h.bld]
      simp only [Builder.mkCheckpoint, hn, show ∀ x, (s.b.ck x).tree = s.b.tree from fun _ => rfl,
        show ∀ x, (s.b.ck x).parent = s.b.parent from fun _ => rfl,
        show ∀ x, (s.b.ck x).checkpoint = x from fun _ => rfl]
      cases hc : s.b.checkpoint with
      | none => right; simp [Builder.ck]
      | some c =>
        simp only [Option.map_some]
        rcases h.cached c hc with ⟨c1, c2⟩ | ⟨c1, hK, cell, c2, c3⟩
        · rw [(h.high c (.inl c1) c2).2]
          rw [List.getElem?_eq_getElem c2]
          simp only
          by_cases ht : s.cells[c].node = node ∧ s.cells[c].parent = s.b.parent
          · left
            refine ⟨c, rfl, ?_, ?_, c1, c2⟩
            · rw [if_pos ht]
            · rw [if_pos ht]
          · right; rw [if_neg ht, if_neg ht]; exact ⟨rfl, rfl⟩
        · right
          obtain ⟨a2, a3⟩ := h.kept c c1 hK
          rw [h.low c c1, a2, a3, c2]
          simp only
          have hne : ¬ (cell.node = node ∧ cell.parent = s.b.parent) := fun hh => by omega
          rw [if_neg hne, if_neg hne]
          exact ⟨rfl, rfl⟩
    simp only [Sys.step]
    rcases key with ⟨c, k0, k1, k2, k3, k4⟩ | ⟨k1, k2⟩
    · rw [k1, k2]
      simp only [locally]
      refine ⟨φ, h.hand (.inl k3) k4, by rw [h.ow_length], ?_⟩
      refine ⟨fun _ _ => rfl, fun c h1 h2 => by simp only at h2; omega, fun _ _ _ => rfl,
        ⟨Nat.le_refl _, Nat.le_refl _⟩, fun g hg => ?_⟩
      simp only; rw [List.getElem?_append_left hg]
    · rw [k1, k2]
      simp only [locally]
      obtain ⟨φ', g1, g2⟩ := h.fresh ⟨node, s.b.parent⟩
      exact ⟨φ', g1, by rw [h.ow_length], g2⟩

/-- A checkpoint as seen by its builder, and in the world. -/
theorem Track.handle {C : Cells} {U K : Nat → Prop} {S s : Sys α} {ow : List Nat} {φ : Nat → Nat}
    (h : Track C U K S ow s φ) (n : Nat) :
    S.handles[ow[n]?.getD S.handles.length]? = s.handles[n]?.map φ := by
  have e := congrArg (fun l => l[n]?) h.hnd
  simp only [List.getElem?_map] at e
  cases ho : ow[n]? with
  | none =>
    rw [ho] at e
    cases hs : s.handles[n]? with
    | none => simp
    | some c => rw [hs] at e; simp at e
  | some g =>
    rw [ho] at e
    cases hs : s.handles[n]? with
    | none => rw [hs] at e; simp at e
    | some c => rw [hs] at e; simpa using e

/-- One call. -/
theorem Track.step {C : Cells} {U K : Nat → Prop} {S s : Sys α} {ow : List Nat} {φ : Nat → Nat}
    (h : Track C U K S ow s φ) (op : Op α) {op' : Op α}
    (hop : op' = op.globally ow S.handles.length) :
    ∃ φ', Track C U K (S.step fl op').1 (locally ow (S.step fl op').2).2 (s.step fl op).1 φ' ∧
      (locally ow (S.step fl op').2).1 = (s.step fl op).2 ∧
      Frame C U S (S.step fl op').1 s (s.step fl op).1 φ φ' := by
  subst hop
  have hat : ∀ (n : Nat) (d : α) (e : Option Span) (op op' : Op α),
      (∀ T : Sys α, T.step fl op = match T.handles[n]? with
        | none => (T, .ok .unit)
        | some c => (⟨(T.b.closeAtCore fl T.cells c d e).2.1,
            (T.b.closeAtCore fl T.cells c d e).1, T.handles⟩,
            (T.b.closeAtCore fl T.cells c d e).2.2.map .id)) →
      (∀ T : Sys α, T.step fl op' = match T.handles[ow[n]?.getD S.handles.length]? with
        | none => (T, .ok .unit)
        | some c => (⟨(T.b.closeAtCore fl T.cells c d e).2.1,
            (T.b.closeAtCore fl T.cells c d e).1, T.handles⟩,
            (T.b.closeAtCore fl T.cells c d e).2.2.map .id)) →
      ∃ φ', Track C U K (S.step fl op').1 (locally ow (S.step fl op').2).2 (s.step fl op).1 φ' ∧
      (locally ow (S.step fl op').2).1 = (s.step fl op).2 ∧
      Frame C U S (S.step fl op').1 s (s.step fl op).1 φ φ' := by
    intro n d e op op' e1 e2
    rw [e1 s, e2 S, h.handle n]
    cases hs : s.handles[n]? with
    | none => exact ⟨φ, h, rfl, Frame.same rfl rfl rfl⟩
    | some c =>
      simp only [Option.map_some]
      obtain ⟨a1, a2, a3⟩ := h.closeAt (fl := fl) (List.mem_of_getElem? hs) d e rfl rfl
      have hloc : ∀ r : Except Err Nat, locally ow (r.map .id) = (r.map .id, ow) := by
        intro r; cases r <;> rfl
      rw [hloc, a2]
      exact ⟨φ, a1, rfl, a3⟩
  cases op with
  | «open» d =>
    exact h.plain .id (fun b => b.open fl d) (by simp) (fun b c => open_ck b c d)
      (fun _ => rfl)
  | openWith d sp =>
    exact h.plain .id (fun b => b.openWith fl d sp) (by simp)
      (fun b c => openWith_ck b c d sp) (fun _ => rfl)
  | close =>
    exact h.plain (fun _ => .unit) (fun b => b.close) (by simp)
      (fun b c => close_ck b c) (fun _ => rfl)
  | token d n =>
    exact h.plain .id (fun b => b.token fl d n) (by simp)
      (fun b c => token_ck b c d n) (fun _ => rfl)
  | tokenEmpty d =>
    exact h.plain .id (fun b => b.token fl d 0) (by simp)
      (fun b c => token_ck b c d 0) (fun _ => rfl)
  | tokenWith d sp =>
    exact h.plain .id (fun b => b.tokenWith fl d sp) (by simp)
      (fun b c => tokenWith_ck b c d sp) (fun _ => rfl)
  | checkpoint => exact h.checkpoint
  | closeAt n d => exact hat n d none _ _ (fun _ => rfl) (fun _ => rfl)
  | closeAtWith n d sp => exact hat n d (some sp) _ _ (fun _ => rfl) (fun _ => rfl)
  | setCursor i =>
    exact h.plain (fun _ => .unit) (fun b => (b.setCursor i, .ok ())) (by simp)
      (fun b c => rfl) (fun _ => rfl)

/-- A cell nobody uses is not used. -/
theorem Track.misses {C : Cells} {U K : Nat → Prop} {S s : Sys α} {ow : List Nat} {φ : Nat → Nat}
    (h : Track C U K S ow s φ) {c x : Nat} (h1 : Mine C U c) (h2 : c < s.cells.length)
    (hx : x < C.length) (hK : K x) : φ c ≠ x := by
  intro e
  by_cases hC : c < C.length
  · rw [h.low c hC] at e
    subst e
    rcases h1 with h1 | h1
    · omega
    · exact h.apart _ hK h1
  · have := (h.high c h1 h2).1 (by omega)
    omega

/-- Steps of other builders. -/
theorem Track.other {C : Cells} {U K : Nat → Prop} {S S' T s : Sys α} {ow : List Nat} {φ : Nat → Nat}
    (h : Track C U K S ow s φ) {U' : Nat → Prop} {t t' : Sys α} {ψ ψ' : Nat → Nat}
    (hf : Frame C U' T S' t t' ψ ψ') (hc : S.cells = T.cells) (hh : S.handles = T.handles)
    (hd : ∀ c c', Mine C U c → c < s.cells.length → Mine C U' c' → c' < t.cells.length →
      φ c ≠ ψ c') (hψ : ∀ c x, Mine C U' c → c < t.cells.length → x < C.length → K x → ψ c ≠ x) :
    Track C U K ⟨S.b, S'.cells, S'.handles⟩ ow s φ := by
  refine ⟨h.bld, h.low, ?_, h.apart, ?_, h.inj, ?_, ?_, h.new, h.cached⟩
  · intro c hC hK
    obtain ⟨a2, a3⟩ := h.kept c hC hK
    refine ⟨a2, ?_⟩
    simp only
    rw [hf.cells c (by rw [← hc]; have := h.len.2; omega), ← hc, a3]
    intro x x1 x2
    exact hψ x c x1 x2 hC hK
  · intro c c1 c2
    obtain ⟨a1, a2⟩ := h.high c c1 c2
    refine ⟨a1, ?_⟩
    simp only
    rw [hf.cells (φ c), ← hc, a2]
    · rw [List.getElem?_eq_getElem c2] at a2
      rw [← hc]; exact get_lt a2
    · intro x x1 x2 e
      exact hd c x c1 c2 x1 x2 e.symm
  · have := h.len
    have := hf.more.1
    rw [← hc] at this
    simp only; omega
  · simp only
    rw [← h.hnd]
    apply List.map_congr_left
    intro g hg
    have hm : S.handles[g]? ∈ s.handles.map (fun c => some (φ c)) := by
      rw [← h.hnd]; exact List.mem_map.2 ⟨g, hg, rfl⟩
    obtain ⟨x, _, hx⟩ := List.mem_map.1 hm
    rw [hf.handles g (by rw [← hh]; exact get_lt hx.symm), ← hh]

/-- Two builders of a world, each of which behaves like a lone one. -/
structure Two (fl : Flavor) (C : Cells) (U V K : Nat → Prop) (w : World α) (own : Nat → List Nat)
    (i k : Nat) (s t : Sys α) : Prop where
  ne : i ≠ k
  tracks : ∃ B D φ ψ, w.builders[i]? = some (fl, B) ∧ w.builders[k]? = some (fl, D) ∧
    Track C U K ⟨B, w.cells, w.handles⟩ (own i) s φ ∧
    Track C V K ⟨D, w.cells, w.handles⟩ (own k) t ψ ∧
    ∀ c c', Mine C U c → c < s.cells.length → Mine C V c' → c' < t.cells.length → φ c ≠ ψ c'

theorem Two.symm {C : Cells} {U V K : Nat → Prop} {w : World α} {own : Nat → List Nat} {i k : Nat} {s t : Sys α}
    (h : Two fl C U V K w own i k s t) : Two fl C V U K w own k i t s := by
  obtain ⟨ne, B, D, φ, ψ, h1, h2, h3, h4, h5⟩ := h
  exact ⟨ne.symm, D, B, ψ, φ, h2, h1, h4, h3, fun c c' a1 a2 a3 a4 e => h5 c' c a3 a4 a1 a2 e.symm⟩

/-- What `World.runOwn` does with the result of a call. -/
def noted (own : Nat → List Nat) (j : Nat) (o : Except Err Out) : Nat → List Nat :=
  fun m => if m = j then (locally (own j) o).2 else own m

theorem runOwn_cons {w : World α} {own : Nat → List Nat} {j : Nat} {op : Op α}
    {calls : List (Nat × Op α)} {b : Builder α} (hb : w.builders[j]? = some (fl, b)) :
    w.runOwn own ((j, op) :: calls) =
      let r := (⟨b, w.cells, w.handles⟩ : Sys α).step fl (op.globally (own j) w.handles.length)
      let r' := World.runOwn ⟨w.builders.set j (fl, r.1.b), r.1.cells, r.1.handles⟩
        (noted own j r.2) calls
      (r'.1, (j, some (locally (own j) r.2).1) :: r'.2) := by
  simp only [World.runOwn, World.step, hb]
  generalize (⟨b, w.cells, w.handles⟩ : Sys α).step fl (op.globally (own j) w.handles.length) = r
  obtain ⟨s', o⟩ := r
  have e2 : ∀ o, (locally (own j) o).2 = own j → noted own j o = own := by
    intro o h; funext m; unfold noted; by_cases hm : m = j <;> simp [hm, h]
  rcases o with er | (n | n | _)
  · rw [e2 (.error er) rfl]; rfl
  · rw [e2 (.ok (.id n)) rfl]; rfl
  · rfl
  · rw [e2 (.ok .unit) rfl]; rfl

theorem Two.step {C : Cells} {U V K : Nat → Prop} {w : World α} {own : Nat → List Nat} {i k : Nat} {s t : Sys α}
    (h : Two fl C U V K w own i k s t) (op : Op α) (calls : List (Nat × Op α)) :
    ∃ w' own', w.runOwn own ((i, op) :: calls) =
        ((w'.runOwn own' calls).1, (i, some (s.step fl op).2) :: (w'.runOwn own' calls).2) ∧
      Two fl C U V K w' own' i k (s.step fl op).1 t := by
  obtain ⟨ne, B, D, φ, ψ, h1, h2, h3, h4, h5⟩ := h
  obtain ⟨φ', g1, g2, g3⟩ := h3.step (fl := fl) op rfl
  generalize hr : (⟨B, w.cells, w.handles⟩ : Sys α).step fl
    (op.globally (own i) w.handles.length) = r at g1 g2 g3
  refine ⟨⟨w.builders.set i (fl, r.1.b), r.1.cells, r.1.handles⟩, noted own i r.2, ?_, ne, r.1.b, D,
    φ', ψ, List.getElem?_set_self (get_lt h1), (List.getElem?_set_ne ne).trans h2, ?_, ?_, ?_⟩
  · rw [runOwn_cons h1]
    simp only [hr]
    rw [g2]
  · simp only [noted, if_true]
    exact g1
  · simp only [noted, if_neg ne.symm]
    exact h4.other g3 rfl rfl
      (fun c c' a1 a2 a3 a4 e => h5 c' c a3 a4 a1 a2 e.symm)
      (fun c x a1 a2 hx hK e => h3.misses a1 a2 hx hK e)
  · intro c c' a1 a2 a3 a4 e
    by_cases hc : c < s.cells.length
    · rw [g3.old c hc] at e
      exact h5 c c' a1 hc a3 a4 e
    · have := g3.fresh c (by omega) a2
      have hx := (h4.high c' a3 a4).2
      rw [List.getElem?_eq_getElem a4] at hx
      have := get_lt hx
      simp only at *
      omega

theorem Two.run (calls : List (Nat × Op α)) : ∀ {C : Cells} {U V K : Nat → Prop} {w : World α} {own : Nat → List Nat}
    {i k : Nat} {s t : Sys α}, Two fl C U V K w own i k s t → (∀ p ∈ calls, p.1 = i ∨ p.1 = k) →
    (onBuilder i (w.runOwn own calls).2 = (s.run fl (onBuilder i calls)).2.map some ∧
      onBuilder k (w.runOwn own calls).2 = (t.run fl (onBuilder k calls)).2.map some) ∧
    (∃ c, (w.runOwn own calls).1.builders[i]? =
      some (fl, { (s.run fl (onBuilder i calls)).1.b with checkpoint := c })) ∧
    (∃ c, (w.runOwn own calls).1.builders[k]? =
      some (fl, { (t.run fl (onBuilder k calls)).1.b with checkpoint := c })) := by
  induction calls with
  | nil =>
    intro C U V K w own i k s t h _
    obtain ⟨ne, B, D, φ, ψ, h1, h2, h3, h4, h5⟩ := h
    exact ⟨⟨rfl, rfl⟩, ⟨_, by rw [World.runOwn, h1]; rw [show B = _ from h3.bld]; rfl⟩,
      ⟨_, by rw [World.runOwn, h2]; rw [show D = _ from h4.bld]; rfl⟩⟩
  | cons p calls ih =>
    intro C U V K w own i k s t h hp
    have hp' : ∀ p ∈ calls, p.1 = i ∨ p.1 = k := fun q hq => hp q (List.mem_cons_of_mem _ hq)
    obtain ⟨j, op⟩ := p
    have main : ∀ {U V : Nat → Prop} {i k : Nat} {s t : Sys α}, Two fl C U V K w own i k s t →
        (∀ p ∈ calls, p.1 = i ∨ p.1 = k) →
        (onBuilder i (w.runOwn own ((i, op) :: calls)).2 =
            (s.run fl (onBuilder i ((i, op) :: calls))).2.map some ∧
          onBuilder k (w.runOwn own ((i, op) :: calls)).2 =
            (t.run fl (onBuilder k ((i, op) :: calls))).2.map some) ∧
        (∃ c, (w.runOwn own ((i, op) :: calls)).1.builders[i]? =
          some (fl, { (s.run fl (onBuilder i ((i, op) :: calls))).1.b with checkpoint := c })) ∧
        (∃ c, (w.runOwn own ((i, op) :: calls)).1.builders[k]? =
          some (fl, { (t.run fl (onBuilder k ((i, op) :: calls))).1.b with checkpoint := c })) := by
      intro U V i k s t h hp'
      obtain ⟨w', own', e, h'⟩ := h.step op calls
      have e1 : onBuilder i ((i, op) :: calls) = op :: onBuilder i calls := by simp [onBuilder]
      have e2 : onBuilder k ((i, op) :: calls) = onBuilder k calls := by
        simp [onBuilder, h.ne]
      obtain ⟨⟨a1, a2⟩, a3, a4⟩ := ih h' hp'
      rw [e, e1, e2]
      have e3 : ∀ l : List (Nat × Option (Except Err Out)), ∀ o,
          onBuilder i ((i, o) :: l) = o :: onBuilder i l := by intro l o; simp [onBuilder]
      have e4 : ∀ l : List (Nat × Option (Except Err Out)), ∀ o,
          onBuilder k ((i, o) :: l) = onBuilder k l := by intro l o; simp [onBuilder, h.ne]
      simp only [e3, e4, Sys.run, List.map_cons]
      exact ⟨⟨by rw [a1], a2⟩, a3, a4⟩
    rcases hp (j, op) List.mem_cons_self with e | e
    · simp only at e; subst e
      exact main h hp'
    · simp only at e; subst e
      obtain ⟨⟨a1, a2⟩, a3, a4⟩ := main h.symm (fun p hq => (hp' p hq).symm)
      exact ⟨⟨a2, a1⟩, a4, a3⟩

/-- Right after a clone: the checkpoints of before are shared out between the two. -/
theorem Two.clone {w : World α} {i : Nat} {b : Builder α} {U V : Nat → Prop}
    {own : Nat → List Nat} {hs ht : List Nat}
    (hb : w.builders[i]? = some (fl, b))
    (hc : ∀ c, b.checkpoint = some c → ∃ cell, w.cells[c]? = some cell ∧ cell.node < b.tree.len)
    (hUV : ∀ c, U c → ¬ V c) (hU : ∀ c, b.checkpoint = some c → ¬ U c)
    (hV : ∀ c, b.checkpoint = some c → ¬ V c)
    (ho : (own i).map (fun g => w.handles[g]?) = hs.map some)
    (ho' : (own w.builders.length).map (fun g => w.handles[g]?) = ht.map some)
    (hsU : ∀ c ∈ hs, U c ∧ c < w.cells.length) (htV : ∀ c ∈ ht, V c ∧ c < w.cells.length) :
    Two fl w.cells U V (fun c => b.checkpoint = some c) (w.step (.clone i)).1 own i
      w.builders.length ⟨b, w.cells, hs⟩ ⟨b, w.cells, ht⟩ := by
  have hi := get_lt hb
  have hT : ∀ (U : Nat → Prop) (ow hs : List Nat), (∀ c, b.checkpoint = some c → ¬ U c) →
      ow.map (fun g => w.handles[g]?) = hs.map some → (∀ c ∈ hs, U c ∧ c < w.cells.length) →
      Track w.cells U (fun c => b.checkpoint = some c) ⟨b, w.cells, w.handles⟩ ow
        ⟨b, w.cells, hs⟩ id := by
    intro U ow hs hK h1 h2
    refine ⟨by simp [Builder.ck], fun _ _ => rfl, fun _ _ _ => ⟨rfl, rfl⟩, hK,
      fun _ _ _ => ⟨fun h => h, rfl⟩, fun _ _ _ _ e => e, ⟨Nat.le_refl _, Nat.le_refl _⟩, h1,
      fun c hc => ⟨.inr (h2 c hc).1, (h2 c hc).2⟩, fun c h => ?_⟩
    obtain ⟨cell, h1, h2⟩ := hc c h
    exact .inr ⟨get_lt h1, h, cell, h1, h2⟩
  refine ⟨by omega, b, b, id, id, ?_, ?_, ?_, ?_, ?_⟩
  · simp only [World.step, hb]
    rw [List.getElem?_append_left hi]; exact hb
  · simp only [World.step, hb]
    rw [List.getElem?_concat_length]; rfl
  · simp only [World.step, hb]; exact hT U _ _ hU ho hsU
  · simp only [World.step, hb]; exact hT V _ _ hV ho' htV
  · intro c c' a1 a2 a3 a4 e
    simp only [id] at a2 a4 e
    subst e
    rcases a1 with a1 | a1
    · omega
    · rcases a3 with a3 | a3
      · omega
      · exact hUV c a1 a3

/-! ## Checkpoints that are out of date -/

theorem closeAtCore_quiet (b : Builder α) (cells : Cells) (c : Nat) (d : α) (e : Option Span)
    (h : ∀ i, (b.closeAtCore fl cells c d e).2.2 ≠ .ok i) :
    (b.closeAtCore fl cells c d e).1 = cells := by
  revert h
  unfold Builder.closeAtCore
  cases cells[c]? with
  | none => intro; rfl
  | some cell =>
    simp only
    split
    · intro; rfl
    · cases ptrNew fl.width b.tree.len with
      | none => intro; rfl
      | some newId =>
        simp only
        cases b.tree.nodes[cell.node]? with
        | none =>
          simp only
          rcases b.insert fl d (e.getD (Span.point b.cursor)) with ⟨b', _ | i⟩
          · intro; rfl
          · simp only; split <;> (intro; rfl)
        | some links =>
          simp only
          rcases reparent newId cell.node links b.tree.nodes with ⟨nodes, _ | ⟨last, span⟩⟩
          · intro; rfl
          · intro h; exact absurd rfl (h newId)

/-- Only `checkpoint` and a successful `close_at` touch checkpoints. -/
theorem Sys.step_quiet (s : Sys α) (op : Op α) (h1 : op ≠ .checkpoint)
    (h2 : idOf (s.step fl op).2 = none) : (s.step fl op).1.cells = s.cells := by
  cases op with
  | checkpoint => exact absurd rfl h1
  | closeAt k d =>
    simp only [Sys.step] at h2 ⊢
    cases hk : s.handles[k]? with
    | none => rfl
    | some c =>
      rw [hk] at h2
      refine closeAtCore_quiet s.b s.cells c d none (fun i e => ?_)
      simp only [Builder.closeAt, e, Except.map, idOf] at h2
      simp at h2
  | closeAtWith k d sp =>
    simp only [Sys.step] at h2 ⊢
    cases hk : s.handles[k]? with
    | none => rfl
    | some c =>
      rw [hk] at h2
      refine closeAtCore_quiet s.b s.cells c d (some sp) (fun i e => ?_)
      simp only [Builder.closeAtWith, e, Except.map, idOf] at h2
      simp at h2
  | _ => rfl

/-- All checkpoints are out of date. -/
def Stale (s : Sys α) : Prop :=
  ∀ (c : Nat) (cell : Cell), s.cells[c]? = some cell → cell.node < s.b.tree.len

theorem Alone.stale_step {s : Sys α} {st : List Nat} (h : Alone fl s st) {op : Op α}
    (h1 : op ≠ .checkpoint) (h2 : Stale s ∨ (idOf (s.step fl op).2).isSome) :
    Stale (s.step fl op).1 := by
  cases hi : idOf (s.step fl op).2 with
  | none =>
    rw [hi] at h2
    intro c cell hc
    rw [Sys.step_quiet s op h1 hi] at hc
    rcases h2 with h2 | h2
    · exact Nat.lt_of_lt_of_le (h2 c cell hc) (Sys.step_len_le s op)
    · simp at h2
  | some i =>
    obtain ⟨e, st', he⟩ := h.good.step op
    have ha : nodesAdded (expected fl s op) = 1 := by
      rw [← e]
      revert hi
      rcases (s.step fl op).2 with er | (n | n | _) <;> simp [idOf, nodesAdded]
    intro c cell hc
    have hl := he.len
    rw [ha] at hl
    simp only [Tree.len]
    rcases he.cell c cell hc with h3 | h3
    · have := h.own c cell h3; omega
    · omega

theorem Alone.stale_run (ops : List (Op α)) {s : Sys α} {st : List Nat} (h : Alone fl s st)
    (h1 : ∀ op ∈ ops, op ≠ .checkpoint)
    (h2 : Stale s ∨ ∃ o ∈ (s.run fl ops).2, (idOf o).isSome) : Stale (s.run fl ops).1 := by
  induction ops generalizing s st with
  | nil =>
    rcases h2 with h2 | ⟨o, ho, _⟩
    · exact h2
    · simp [Sys.run] at ho
  | cons op ops ih =>
    obtain ⟨st', h', _⟩ := h.step op
    have h1' := h1 op List.mem_cons_self
    refine ih h' (fun o ho => h1 o (List.mem_cons_of_mem _ ho)) ?_
    rcases h2 with h2 | ⟨o, ho, hi⟩
    · exact .inl (h.stale_step h1' (.inl h2))
    · simp only [Sys.run, List.mem_cons] at ho
      rcases ho with rfl | ho
      · exact .inl (h.stale_step h1' (.inr hi))
      · exact .inr ⟨o, ho, hi⟩

theorem Sys.run_length (ops : List (Op α)) (s : Sys α) : (s.run fl ops).2.length = ops.length := by
  induction ops generalizing s with
  | nil => rfl
  | cons op ops ih => simp only [Sys.run, List.length_cons]; rw [ih]

theorem Settled.stale {ops : List (Op α)} (h : Settled fl ops) :
    Stale (Sys.init.run fl ops).1 := by
  obtain ⟨pre, mid, rfl, h1, h2⟩ := h
  obtain ⟨st, hA⟩ := (Alone.init (α := α) fl).run pre
  rw [Sys.run_append] at h2 ⊢
  refine hA.stale_run mid h1 ?_
  rcases h2 with rfl | ⟨o, ho, hi⟩
  · left; intro c cell hc; simp [Sys.run, Sys.init] at hc
  · right
    simp only [← Sys.run_length (fl := fl) pre Sys.init, List.drop_left] at ho
    exact ⟨o, ho, hi⟩

theorem world_calls (ops : List (Op α)) (s : Sys α) :
    (World.run ⟨[(fl, s.b)], s.cells, s.handles⟩ (ops.map (.call 0))).1 =
      ⟨[(fl, (s.run fl ops).1.b)], (s.run fl ops).1.cells, (s.run fl ops).1.handles⟩ := by
  induction ops generalizing s with
  | nil => rfl
  | cons op ops ih =>
    simp only [List.map_cons, World.run, World.step, List.getElem?_cons_zero, List.set_cons_zero,
      Sys.run]
    exact ih (s.step fl op).1

end Syntree
