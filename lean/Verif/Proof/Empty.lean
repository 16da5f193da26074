import Verif.Spec.Empty
import Verif.Model.Builder

/-! Builders commute with forgetting spans. -/

namespace Syntree

variable {α : Type} {fl : Flavor}

def Builder.bare (b : Builder α) : Builder α :=
  ⟨b.tree.bare, b.checkpoint, b.parent, b.sibling, 0⟩

def Sys.bare (s : Sys α) : Sys α := ⟨s.b.bare, s.cells, s.handles⟩

/-- A flavor with the `Empty` index whose tree is compared up to the span index. -/
structure Sim (fl flE : Flavor) : Prop where
  ik : flE.ik = .empty
  keep : flE.keepIdx = false
  width : flE.width = fl.width

theorem map_modify (nodes : List (Links α)) (i : Nat) (f g : Links α → Links α)
    (h : ∀ l, (f l).bare = g l.bare) :
    (nodes.modify i f).map Links.bare = (nodes.map Links.bare).modify i g := by
  apply List.ext_getElem?
  intro j
  simp only [List.getElem?_map, List.getElem?_modify]
  cases nodes[j]? with
  | none => rfl
  | some l => by_cases e : i = j <;> simp [e, h]

theorem bare_modifyNode (t : Tree α) (i : Nat) (f g : Links α → Links α)
    (h : ∀ l, (f l).bare = g l.bare) : (t.modifyNode i f).bare = t.bare.modifyNode i g := by
  simp only [Tree.modifyNode, Tree.bare, map_modify t.nodes i f g h]

theorem bare_modifyOpt (t : Tree α) (i : Option Nat) (f g : Links α → Links α)
    (h : ∀ l, (f l).bare = g l.bare) : (t.modifyOpt i f).bare = t.bare.modifyOpt i g := by
  cases i with
  | none => rfl
  | some i => exact bare_modifyNode t i f g h

theorem bare_push (t : Tree α) (l : Links α) : (t.push l).bare = t.bare.push l.bare := by
  simp [Tree.push, Tree.bare]

theorem bare_len (t : Tree α) : t.bare.len = t.len := by simp [Tree.len, Tree.bare]

theorem bare_get (t : Tree α) (i : Nat) : t.bare.nodes[i]? = t.nodes[i]?.map Links.bare := by
  simp [Tree.bare]

theorem bare_pushIndex (fl : Flavor) (t : Tree α) (i : TreeIndex) : (t.pushIndex fl i).bare = t.bare := by
  unfold Tree.pushIndex; split <;> rfl

theorem pushIndex_off {flE : Flavor} (h : flE.keepIdx = false) (t : Tree α) (i : TreeIndex) :
    t.pushIndex flE i = t := by
  unfold Tree.pushIndex; simp [h]

theorem bare_addRoot (t : Tree α) (i : Nat) : (t.addRoot i).bare = t.bare.addRoot i := rfl

theorem bare_insert {flE : Flavor} (hs : Sim fl flE) (b : Builder α) (d : α) (sp : Span) :
    b.bare.insert flE d ⟨0, 0⟩ = ((b.insert fl d sp).1.bare, (b.insert fl d sp).2) := by
  unfold Builder.insert
  have e1 : b.bare.tree.len = b.tree.len := bare_len _
  rw [e1, hs.width]
  cases ptrNew fl.width b.tree.len with
  | none => rfl
  | some new =>
    simp only [Builder.bare, Prod.mk.injEq, and_true, Builder.mk.injEq]
    rw [bare_modifyOpt _ _ _ (fun l => { l with next := some new }) (fun _ => rfl)]
    congr 1
    cases b.parent with
    | none => simp only [bare_addRoot, bare_push]; rfl
    | some p =>
      simp only
      rw [bare_modifyNode _ _ _ (Links.addChild new ⟨0, 0⟩) (fun _ => rfl), bare_push]
      rfl

theorem restructure_bare (p : Nat) : ∀ (fuel : Nat) (nodes : List (Links α)) (cur : Nat),
    restructure p fuel (nodes.map Links.bare) cur =
      ((restructure p fuel nodes cur).1.map Links.bare,
        (restructure p fuel nodes cur).2.map fun r => (r.1, 0))
  | 0, _, _ => rfl
  | fuel + 1, nodes, cur => by
    simp only [restructure, List.getElem?_map]
    cases nodes[cur]? with
    | none => rfl
    | some l =>
      obtain ⟨d, sp, pa, pv, nx, f, la⟩ := l
      have e2 : (nodes.map Links.bare).set cur ⟨d, ⟨0, 0⟩, some p, pv, nx, f, la⟩ =
          (nodes.set cur ⟨d, sp, some p, pv, nx, f, la⟩).map Links.bare := by
        rw [List.map_set]; rfl
      simp only [Option.map_some, Links.bare]
      rw [e2]
      cases nx with
      | none => rfl
      | some next => exact restructure_bare p fuel _ next

theorem reparent_bare (newId id : Nat) (links : Links α) (nodes : List (Links α)) :
    reparent newId id links.bare (nodes.map Links.bare) =
      ((reparent newId id links nodes).1.map Links.bare,
        (reparent newId id links nodes).2.map fun r => (r.1, ⟨0, 0⟩)) := by
  obtain ⟨d, sp, pa, pv, nx, f, la⟩ := links
  have e2 : (nodes.map Links.bare).set id ⟨d, ⟨0, 0⟩, some newId, none, nx, f, la⟩ =
      (nodes.set id ⟨d, sp, some newId, none, nx, f, la⟩).map Links.bare := by
    rw [List.map_set]; rfl
  unfold reparent
  simp only [show (Links.bare ⟨d, sp, pa, pv, nx, f, la⟩ : Links α) = ⟨d, ⟨0, 0⟩, pa, pv, nx, f, la⟩ from rfl]
  rw [e2]
  cases nx with
  | none => rfl
  | some next =>
    simp only [List.length_map, restructure_bare]
    rcases restructure newId _ (nodes.set id ⟨d, sp, some newId, none, some next, f, la⟩) next with ⟨n', r⟩
    cases r with
    | error e => rfl
    | ok r => rfl

theorem relink_bare (t : Tree α) (id newId : Nat) (parent prev : Option Nat) (new : Links α) :
    (t.relink id newId parent prev new).bare = t.bare.relink id newId parent prev new.bare := by
  unfold Tree.relink
  simp only [bare_push]
  congr 1
  have e : ∀ (t : Tree α) (x : Option Nat), Tree.bare { t with first := x } = { t.bare with first := x } :=
    fun _ _ => rfl
  rw [e]
  rw [bare_modifyOpt _ prev _ (fun p => { p with next := some newId }) (fun _ => rfl),
    bare_modifyOpt _ parent _ (fun p =>
    { p with
      first := if p.first = some id then some newId else p.first
      last := if p.last = some id then some newId else p.last }) (fun _ => rfl)]
  have e2 : ∀ (t : Tree α) (i : Option Nat) (f : Links α → Links α),
      (t.modifyOpt i f).first = t.first := by
    intro t i f; cases i <;> rfl
  simp only [e2]
  rfl

theorem closeAtCore_bare {flE : Flavor} (hs : Sim fl flE) (cells : Cells) (b : Builder α) (c : Nat)
    (d : α) (e e' : Option Span) (he : e'.getD ⟨0, 0⟩ = ⟨0, 0⟩) :
    b.bare.closeAtCore flE cells c d e' =
      ((b.closeAtCore fl cells c d e).1, (b.closeAtCore fl cells c d e).2.1.bare,
        (b.closeAtCore fl cells c d e).2.2) := by
  unfold Builder.closeAtCore
  cases cells[c]? with
  | none => rfl
  | some cell =>
    simp only
    have e0 : b.bare.parent = b.parent := rfl
    rw [e0]
    by_cases hp : cell.parent ≠ b.parent
    · rw [if_pos hp, if_pos hp]
    · rw [if_neg hp, if_neg hp]
      have e1 : b.bare.tree.len = b.tree.len := bare_len _
      rw [e1, hs.width]
      cases ptrNew fl.width b.tree.len with
      | none => rfl
      | some newId =>
        simp only
        have e2 : b.bare.tree.nodes[cell.node]? = b.tree.nodes[cell.node]?.map Links.bare :=
          bare_get _ _
        rw [e2]
        cases b.tree.nodes[cell.node]? with
        | none =>
          simp only [Option.map_none]
          have e3 : e'.getD (Span.point b.bare.cursor) = ⟨0, 0⟩ := by
            cases e' with
            | none => rfl
            | some sp => exact he
          rw [e3, bare_insert hs b d (e.getD (Span.point b.cursor))]
          rcases b.insert fl d (e.getD (Span.point b.cursor)) with ⟨b', r⟩
          cases r with
          | error _ => rfl
          | ok i => simp only; by_cases hi : i ≠ cell.node
                    · rw [if_pos hi, if_pos hi]
                    · rw [if_neg hi, if_neg hi]; rfl
        | some links =>
          simp only [Option.map_some]
          have e4 : b.bare.tree.nodes = b.tree.nodes.map Links.bare := rfl
          rw [e4, reparent_bare]
          rcases reparent newId cell.node links b.tree.nodes with ⟨nodes, r⟩
          cases r with
          | error _ => rfl
          | ok r =>
            obtain ⟨last, span⟩ := r
            simp only [Except.map, Builder.bare, relink_bare, Links.bare, he]
            rfl

theorem openWith_bare {flE : Flavor} (hs : Sim fl flE) (b : Builder α) (d : α) (sp : Span) :
    b.bare.openWith flE d ⟨0, 0⟩ = ((b.openWith fl d sp).1.bare, (b.openWith fl d sp).2) := by
  unfold Builder.openWith
  rw [bare_insert hs b d sp]
  rcases b.insert fl d sp with ⟨b', r⟩
  cases r <;> rfl

theorem close_bare (b : Builder α) :
    b.bare.close = (b.close.1.bare, b.close.2) := by
  unfold Builder.close
  have e0 : b.bare.parent = b.parent := rfl
  rw [e0]
  cases b.parent with
  | none => rfl
  | some head =>
    simp only
    have e2 : b.bare.tree.nodes[head]? = b.tree.nodes[head]?.map Links.bare := bare_get _ _
    rw [e2]
    cases b.tree.nodes[head]? with
    | none => rfl
    | some links =>
      simp only [Option.map_some]
      have e3 : (Links.bare links).parent = links.parent := rfl
      rw [e3]
      cases links.parent with
      | none => rfl
      | some id =>
        have e1 : b.bare.tree.len = b.tree.len := bare_len _
        simp only [e1]
        split
        · have e := bare_modifyNode b.tree id (fun p => { p with span := p.span.join links.span })
            (fun p => { p with span := p.span.join ⟨0, 0⟩ }) (fun _ => rfl)
          simp only [Builder.bare, e]
          rfl
        · rfl

theorem token_bare {flE : Flavor} (hs : Sim fl flE) (b : Builder α) (d : α) (len len' : Nat)
    (hi : fl.ik.lenIsEmpty len = true ∨ (fl.ik.checkedAddLen b.cursor len).isSome = true) :
    b.bare.token flE d len' = ((b.token fl d len).1.bare, (b.token fl d len).2) := by
  have hl : flE.ik.lenIsEmpty len' = true := by rw [hs.ik]; rfl
  have h1 : b.bare.token flE d len' =
      match b.bare.insert flE d ⟨0, 0⟩ with
      | (b, .error e) => (b, .error e)
      | (b, .ok id) => ({ b with sibling := some id }, .ok id) := by
    unfold Builder.token
    simp only [hl, if_true]
    rfl
  rw [h1]
  unfold Builder.token
  by_cases he : fl.ik.lenIsEmpty len = true
  · simp only [he, if_true]
    rw [bare_insert hs b d (Span.new b.cursor b.cursor)]
    rcases b.insert fl d (Span.new b.cursor b.cursor) with ⟨b', r⟩
    cases r <;> rfl
  · simp only [if_neg he]
    cases ha : fl.ik.checkedAddLen b.cursor len with
    | none =>
      rcases hi with h | h
      · exact absurd h he
      · rw [ha] at h; simp at h
    | some c =>
      simp only
      have e : b.bare = Builder.bare { b with
          cursor := c, tree := { b.tree with span := { b.tree.span with stop := c } } } := rfl
      rw [e, bare_insert hs _ d (Span.new b.cursor c)]
      rcases Builder.insert fl { b with
          cursor := c, tree := { b.tree with span := { b.tree.span with stop := c } } } d
          (Span.new b.cursor c) with ⟨b', r⟩
      cases r with
      | error _ => rfl
      | ok i =>
        simp only [Builder.bare, bare_pushIndex]

theorem tokenWith_bare {flE : Flavor} (hs : Sim fl flE) (b : Builder α) (d : α) (sp : Span) :
    b.bare.tokenWith flE d ⟨0, 0⟩ = ((b.tokenWith fl d sp).1.bare, (b.tokenWith fl d sp).2) := by
  unfold Builder.tokenWith
  rw [bare_insert hs b d sp]
  rcases b.insert fl d sp with ⟨b', r⟩
  cases r with
  | error _ => rfl
  | ok i =>
    simp only [pushIndex_off hs.keep, Prod.mk.injEq, and_true]
    have e := bare_modifyOpt (b'.tree.pushIndex fl ⟨sp.start, i⟩) b'.parent
      (fun p => { p with span := p.span.join sp })
      (fun p => { p with span := p.span.join ⟨0, 0⟩ }) (fun _ => rfl)
    rw [bare_pushIndex] at e
    simp only [Builder.bare, e]

theorem mkCheckpoint_bare {flE : Flavor} (hs : Sim fl flE) (cells : Cells) (b : Builder α) :
    b.bare.mkCheckpoint flE cells =
      ((b.mkCheckpoint fl cells).1, (b.mkCheckpoint fl cells).2.1.bare,
        (b.mkCheckpoint fl cells).2.2) := by
  unfold Builder.mkCheckpoint
  have e1 : b.bare.tree.len = b.tree.len := bare_len _
  rw [e1, hs.width]
  cases ptrNew fl.width b.tree.len with
  | none => rfl
  | some node =>
    simp only
    have e0 : b.bare.parent = b.parent := rfl
    have e2 : b.bare.checkpoint = b.checkpoint := rfl
    rw [e0, e2]
    cases b.checkpoint with
    | none => rfl
    | some c =>
      simp only
      cases cells[c]? with
      | none => rfl
      | some cell => simp only; split <;> rfl

/-- One call. -/
theorem Sys.step_bare {flE : Flavor} (hs : Sim fl flE) (s : Sys α) (op : Op α)
    (hi : IndexOk fl s.b.cursor op) :
    s.bare.step flE op.bare = ((s.step fl op).1.bare, (s.step fl op).2) := by
  cases op with
  | «open» d =>
    simp only [Op.bare, Sys.step, Sys.lift, Builder.open]
    have := openWith_bare hs s.b d (Span.point s.b.cursor)
    show (_ : Sys α × Except Err Out) = _
    have e : s.bare.b.openWith flE d (Span.point s.bare.b.cursor) = s.b.bare.openWith flE d ⟨0, 0⟩ := rfl
    rw [e, this]; rfl
  | openWith d sp =>
    simp only [Op.bare, Sys.step, Sys.lift]
    have e : s.bare.b.openWith flE d ⟨0, 0⟩ = s.b.bare.openWith flE d ⟨0, 0⟩ := rfl
    rw [e, openWith_bare hs s.b d sp]; rfl
  | close =>
    simp only [Op.bare, Sys.step, Sys.lift]
    have e : s.bare.b.close = s.b.bare.close := rfl
    rw [e, close_bare]; rfl
  | token d len =>
    simp only [Op.bare, Sys.step, Sys.lift]
    have e : s.bare.b.token flE d len = s.b.bare.token flE d len := rfl
    rw [e, token_bare hs s.b d len len hi]; rfl
  | tokenEmpty d =>
    simp only [Op.bare, Sys.step, Sys.lift, Builder.tokenEmpty]
    have e : s.bare.b.token flE d 0 = s.b.bare.token flE d 0 := rfl
    rw [e, token_bare hs s.b d 0 0 (by cases fl.ik <;> exact .inl rfl)]; rfl
  | tokenWith d sp =>
    simp only [Op.bare, Sys.step, Sys.lift]
    have e : s.bare.b.tokenWith flE d ⟨0, 0⟩ = s.b.bare.tokenWith flE d ⟨0, 0⟩ := rfl
    rw [e, tokenWith_bare hs s.b d sp]; rfl
  | checkpoint =>
    simp only [Op.bare, Sys.step]
    have e : s.bare.b.mkCheckpoint flE s.bare.cells = s.b.bare.mkCheckpoint flE s.cells := rfl
    rw [e, mkCheckpoint_bare hs]
    rcases s.b.mkCheckpoint fl s.cells with ⟨cells, b, r⟩
    cases r <;> rfl
  | closeAt k d =>
    simp only [Op.bare, Sys.step]
    have e : s.bare.handles = s.handles := rfl
    rw [e]
    cases s.handles[k]? with
    | none => rfl
    | some c =>
      simp only [Builder.closeAt]
      have e : s.bare.b.closeAtCore flE s.bare.cells c d none =
        s.b.bare.closeAtCore flE s.cells c d none := rfl
      rw [e, closeAtCore_bare hs s.cells s.b c d none none rfl]; rfl
  | closeAtWith k d sp =>
    simp only [Op.bare, Sys.step]
    have e : s.bare.handles = s.handles := rfl
    rw [e]
    cases s.handles[k]? with
    | none => rfl
    | some c =>
      simp only [Builder.closeAtWith]
      have e : s.bare.b.closeAtCore flE s.bare.cells c d (some ⟨0, 0⟩) =
        s.b.bare.closeAtCore flE s.cells c d (some ⟨0, 0⟩) := rfl
      rw [e, closeAtCore_bare hs s.cells s.b c d (some sp) (some ⟨0, 0⟩) rfl]; rfl
  | setCursor i => rfl

/-! ### Forgetting the span index -/

def Builder.noIdx (b : Builder α) : Builder α :=
  ⟨b.tree.noIdx, b.checkpoint, b.parent, b.sibling, b.cursor⟩

def Sys.noIdx (s : Sys α) : Sys α := ⟨s.b.noIdx, s.cells, s.handles⟩

theorem noIdx_modifyOpt (t : Tree α) (i : Option Nat) (f : Links α → Links α) :
    (t.modifyOpt i f).noIdx = t.noIdx.modifyOpt i f := by
  cases i <;> rfl

theorem noIdx_pushIndex (fl : Flavor) (t : Tree α) (i : TreeIndex) :
    (t.pushIndex fl i).noIdx = t.noIdx := by
  unfold Tree.pushIndex; split <;> rfl

theorem unindexed_pushIndex (fl : Flavor) (t : Tree α) (i : TreeIndex) :
    t.pushIndex fl.unindexed i = t := rfl

theorem noIdx_insert (b : Builder α) (d : α) (sp : Span) :
    b.noIdx.insert fl.unindexed d sp = ((b.insert fl d sp).1.noIdx, (b.insert fl d sp).2) := by
  unfold Builder.insert
  have e1 : b.noIdx.tree.len = b.tree.len := rfl
  have e2 : fl.unindexed.width = fl.width := rfl
  rw [e1, e2]
  cases ptrNew fl.width b.tree.len with
  | none => rfl
  | some new =>
    simp only [Builder.noIdx, noIdx_modifyOpt]
    cases b.parent <;> rfl

theorem noIdx_relink (t : Tree α) (id newId : Nat) (parent prev : Option Nat) (new : Links α) :
    (t.relink id newId parent prev new).noIdx = t.noIdx.relink id newId parent prev new := by
  unfold Tree.relink
  cases parent <;> cases prev <;> rfl

theorem noIdx_closeAtCore (cells : Cells) (b : Builder α) (c : Nat) (d : α) (e : Option Span) :
    b.noIdx.closeAtCore fl.unindexed cells c d e =
      ((b.closeAtCore fl cells c d e).1, (b.closeAtCore fl cells c d e).2.1.noIdx,
        (b.closeAtCore fl cells c d e).2.2) := by
  unfold Builder.closeAtCore
  cases cells[c]? with
  | none => rfl
  | some cell =>
    simp only
    have e0 : b.noIdx.parent = b.parent := rfl
    rw [e0]
    by_cases hp : cell.parent ≠ b.parent
    · rw [if_pos hp, if_pos hp]
    · rw [if_neg hp, if_neg hp]
      have e1 : b.noIdx.tree.len = b.tree.len := rfl
      have e2 : fl.unindexed.width = fl.width := rfl
      have e3 : b.noIdx.tree.nodes = b.tree.nodes := rfl
      have e4 : b.noIdx.cursor = b.cursor := rfl
      rw [e1, e2, e3, e4]
      cases ptrNew fl.width b.tree.len with
      | none => rfl
      | some newId =>
        simp only
        cases b.tree.nodes[cell.node]? with
        | none =>
          simp only
          rw [noIdx_insert]
          rcases b.insert fl d (e.getD (Span.point b.cursor)) with ⟨b', r⟩
          cases r with
          | error _ => rfl
          | ok i => simp only; by_cases hi : i ≠ cell.node
                    · rw [if_pos hi, if_pos hi]
                    · rw [if_neg hi, if_neg hi]; rfl
        | some links =>
          simp only
          rcases reparent newId cell.node links b.tree.nodes with ⟨nodes, r⟩
          cases r with
          | error _ => rfl
          | ok r =>
            obtain ⟨last, span⟩ := r
            simp only [Builder.noIdx, noIdx_relink]
            rfl

theorem noIdx_openWith (b : Builder α) (d : α) (sp : Span) :
    b.noIdx.openWith fl.unindexed d sp = ((b.openWith fl d sp).1.noIdx, (b.openWith fl d sp).2) := by
  unfold Builder.openWith
  rw [noIdx_insert]
  rcases b.insert fl d sp with ⟨b', r⟩
  cases r <;> rfl

theorem noIdx_close (b : Builder α) : b.noIdx.close = (b.close.1.noIdx, b.close.2) := by
  unfold Builder.close
  have e0 : b.noIdx.parent = b.parent := rfl
  have e1 : b.noIdx.tree.nodes = b.tree.nodes := rfl
  have e2 : b.noIdx.tree.len = b.tree.len := rfl
  rw [e0]
  cases b.parent with
  | none => rfl
  | some head =>
    simp only [e1, e2]
    cases b.tree.nodes[head]? with
    | none => rfl
    | some links =>
      simp only
      cases links.parent with
      | none => rfl
      | some id => simp only; split <;> rfl

theorem noIdx_token (b : Builder α) (d : α) (len : Nat) :
    b.noIdx.token fl.unindexed d len = ((b.token fl d len).1.noIdx, (b.token fl d len).2) := by
  unfold Builder.token
  have e0 : fl.unindexed.ik = fl.ik := rfl
  have e1 : b.noIdx.cursor = b.cursor := rfl
  rw [e0, e1]
  by_cases he : fl.ik.lenIsEmpty len = true
  · simp only [he, if_true, e1]
    rw [noIdx_insert]
    rcases b.insert fl d (Span.new b.cursor b.cursor) with ⟨b', r⟩
    cases r <;> rfl
  · simp only [if_neg he]
    cases ha : fl.ik.checkedAddLen b.cursor len with
    | none => rfl
    | some c =>
      simp only
      have e : ({ b.noIdx with cursor := c, tree := { b.noIdx.tree with
          span := { b.noIdx.tree.span with stop := c } } } : Builder α) = Builder.noIdx { b with
          cursor := c, tree := { b.tree with span := { b.tree.span with stop := c } } } := rfl
      rw [e, noIdx_insert]
      rcases Builder.insert fl { b with
          cursor := c, tree := { b.tree with span := { b.tree.span with stop := c } } } d
          (Span.new b.cursor c) with ⟨b', r⟩
      cases r with
      | error _ => rfl
      | ok i => simp only [Builder.noIdx, noIdx_pushIndex, unindexed_pushIndex]

theorem noIdx_tokenWith (b : Builder α) (d : α) (sp : Span) :
    b.noIdx.tokenWith fl.unindexed d sp = ((b.tokenWith fl d sp).1.noIdx, (b.tokenWith fl d sp).2) := by
  unfold Builder.tokenWith
  rw [noIdx_insert]
  rcases b.insert fl d sp with ⟨b', r⟩
  cases r with
  | error _ => rfl
  | ok i => simp only [Builder.noIdx, noIdx_pushIndex, unindexed_pushIndex, noIdx_modifyOpt]

theorem noIdx_mkCheckpoint (cells : Cells) (b : Builder α) :
    b.noIdx.mkCheckpoint fl.unindexed cells =
      ((b.mkCheckpoint fl cells).1, (b.mkCheckpoint fl cells).2.1.noIdx,
        (b.mkCheckpoint fl cells).2.2) := by
  unfold Builder.mkCheckpoint
  have e1 : b.noIdx.tree.len = b.tree.len := rfl
  have e2 : fl.unindexed.width = fl.width := rfl
  rw [e1, e2]
  cases ptrNew fl.width b.tree.len with
  | none => rfl
  | some node =>
    simp only
    have e0 : b.noIdx.parent = b.parent := rfl
    have e2 : b.noIdx.checkpoint = b.checkpoint := rfl
    rw [e0, e2]
    cases b.checkpoint with
    | none => rfl
    | some c =>
      simp only
      cases cells[c]? with
      | none => rfl
      | some cell => simp only; split <;> rfl

theorem Sys.step_noIdx (s : Sys α) (op : Op α) :
    s.noIdx.step fl.unindexed op = ((s.step fl op).1.noIdx, (s.step fl op).2) := by
  cases op with
  | «open» d =>
    simp only [Sys.step, Sys.lift, Builder.open]
    have e : s.noIdx.b.openWith fl.unindexed d (Span.point s.noIdx.b.cursor) =
      s.b.noIdx.openWith fl.unindexed d (Span.point s.b.cursor) := rfl
    rw [e, noIdx_openWith]; rfl
  | openWith d sp =>
    simp only [Sys.step, Sys.lift]
    have e : s.noIdx.b.openWith fl.unindexed d sp = s.b.noIdx.openWith fl.unindexed d sp := rfl
    rw [e, noIdx_openWith]; rfl
  | close =>
    simp only [Sys.step, Sys.lift]
    have e : s.noIdx.b.close = s.b.noIdx.close := rfl
    rw [e, noIdx_close]; rfl
  | token d len =>
    simp only [Sys.step, Sys.lift]
    have e : s.noIdx.b.token fl.unindexed d len = s.b.noIdx.token fl.unindexed d len := rfl
    rw [e, noIdx_token]; rfl
  | tokenEmpty d =>
    simp only [Sys.step, Sys.lift, Builder.tokenEmpty]
    have e : s.noIdx.b.token fl.unindexed d 0 = s.b.noIdx.token fl.unindexed d 0 := rfl
    rw [e, noIdx_token]; rfl
  | tokenWith d sp =>
    simp only [Sys.step, Sys.lift]
    have e : s.noIdx.b.tokenWith fl.unindexed d sp = s.b.noIdx.tokenWith fl.unindexed d sp := rfl
    rw [e, noIdx_tokenWith]; rfl
  | checkpoint =>
    simp only [Sys.step]
    have e : s.noIdx.b.mkCheckpoint fl.unindexed s.noIdx.cells =
      s.b.noIdx.mkCheckpoint fl.unindexed s.cells := rfl
    rw [e, noIdx_mkCheckpoint]
    rcases s.b.mkCheckpoint fl s.cells with ⟨cells, b, r⟩
    cases r <;> rfl
  | closeAt k d =>
    simp only [Sys.step]
    have e : s.noIdx.handles = s.handles := rfl
    rw [e]
    cases s.handles[k]? with
    | none => rfl
    | some c =>
      simp only [Builder.closeAt]
      have e : s.noIdx.b.closeAtCore fl.unindexed s.noIdx.cells c d none =
        s.b.noIdx.closeAtCore fl.unindexed s.cells c d none := rfl
      rw [e, noIdx_closeAtCore]; rfl
  | closeAtWith k d sp =>
    simp only [Sys.step]
    have e : s.noIdx.handles = s.handles := rfl
    rw [e]
    cases s.handles[k]? with
    | none => rfl
    | some c =>
      simp only [Builder.closeAtWith]
      have e : s.noIdx.b.closeAtCore fl.unindexed s.noIdx.cells c d (some sp) =
        s.b.noIdx.closeAtCore fl.unindexed s.cells c d (some sp) := rfl
      rw [e, noIdx_closeAtCore]; rfl
  | setCursor i => rfl

theorem Sys.run_noIdx (s : Sys α) (ops : List (Op α)) :
    s.noIdx.run fl.unindexed ops = ((s.run fl ops).1.noIdx, (s.run fl ops).2) := by
  induction ops generalizing s with
  | nil => rfl
  | cons op ops ih => simp only [Sys.run, Sys.step_noIdx, ih]

theorem Sys.run_bare {flE : Flavor} (hs : Sim fl flE) (s : Sys α) (ops : List (Op α))
    (hi : ∀ pre op post, ops = pre ++ op :: post → IndexOk fl (s.run fl pre).1.b.cursor op) :
    s.bare.run flE (ops.map Op.bare) = ((s.run fl ops).1.bare, (s.run fl ops).2) := by
  induction ops generalizing s with
  | nil => rfl
  | cons op ops ih =>
    simp only [List.map_cons, Sys.run]
    rw [Sys.step_bare hs s op (hi [] op ops rfl)]
    simp only
    rw [ih (s.step fl op).1 (fun pre op' post e => by
      have := hi (op :: pre) op' post (by rw [e]; rfl)
      simpa only [Sys.run] using this)]

end Syntree
