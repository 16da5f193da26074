import Verif.Proof.Refine
import Verif.Spec.Built

/-! Reading a represented tree: links and traversals. -/

namespace Syntree

variable {α : Type}

open Forest

/-- `t` stores `F`. -/
abbrev Represents (g : Bool) (t : Tree α) (F : Forest (Lab α)) : Prop :=
  TRep g t F [] t.nodes.length

theorem Represents.root {g : Bool} {t : Tree α} {F : Forest (Lab α)} (h : Represents g t F) :
    Seg g t.nodes F none none none := h.seg

theorem Represents.first {g : Bool} {t : Tree α} {F : Forest (Lab α)} (h : Represents g t F) :
    t.first = F.headId := h.ctx.1

theorem Represents.last {g : Bool} {t : Tree α} {F : Forest (Lab α)} (h : Represents g t F) :
    LastRel g none t.last F := h.ctx.2

theorem Represents.nodup {g : Bool} {t : Tree α} {F : Forest (Lab α)} (h : Represents g t F) :
    F.ids.Nodup := by simpa [stackIds] using TRep.nodup h

theorem Represents.perm {g : Bool} {t : Tree α} {F : Forest (Lab α)} (h : Represents g t F) :
    F.ids.Perm (List.range t.nodes.length) := by simpa [stackIds] using TRep.ids h

theorem Represents.size {g : Bool} {t : Tree α} {F : Forest (Lab α)} (h : Represents g t F) :
    F.size = t.nodes.length := by
  have := h.perm.length_eq
  simpa [ids, preorder_length] using this

theorem Rel.represents {g : Bool} {s : Sys α} {n : Nest α} (h : Rel g s n) (hs : n.stack = []) :
    Represents g s.b.tree n.cur := by
  have := h.tree
  rw [hs] at this
  rw [Represents, this.len]; exact this

/-! ## Locations -/

theorem Forest.Loc.split {β : Type} {F : Forest β} {anc : List β} {left kids right : Forest β}
    {x : β} (h : Loc F anc left x kids right) :
    ∃ pre post, F.preorder = pre ++ (x :: kids.preorder) ++ post := by
  induction h with
  | root h => subst h; exact ⟨preorder _, preorder _, by simp; rfl⟩
  | @child _ _ p _ _ left x kids right _ hk ih =>
    obtain ⟨pre, post, e⟩ := ih
    rw [e, hk]
    refine ⟨pre ++ (p :: left.preorder), right.preorder ++ post, ?_⟩
    simp only [preorder_append, preorder_cons, List.append_assoc, List.cons_append]

theorem Forest.Loc.mem {β : Type} {F : Forest β} {anc : List β} {left kids right : Forest β} {x : β}
    (h : Loc F anc left x kids right) : x ∈ F.preorder := by
  obtain ⟨pre, post, e⟩ := h.split
  rw [e]; simp

/-- Every element has a location. -/
theorem Forest.Loc.exists_aux {β : Type} {F : Forest β} (G : Forest β) (x : β) (hx : x ∈ G.preorder)
    (mk : ∀ l y k r, G = l ++ Forest.cons y k r → ∃ anc left, Loc F anc left y k r) :
    ∃ anc left kids right, Loc F anc left x kids right := by
  induction G with
  | nil => simp at hx
  | cons y k r ihk ihr =>
    simp only [preorder_cons, List.mem_cons, List.mem_append] at hx
    rcases hx with rfl | hx | hx
    · obtain ⟨anc, left, h⟩ := mk .nil x k r rfl
      exact ⟨anc, left, k, r, h⟩
    · obtain ⟨anc, left, h⟩ := mk .nil y k r rfl
      exact ihk hx (fun l z k' r' e => ⟨y :: anc, l, .child h e⟩)
    · exact ihr hx (fun l z k' r' e => mk (.cons y k l) z k' r' (by rw [e]; rfl))

theorem Forest.Loc.exists_of_mem {β : Type} {F : Forest β} {x : β} (hx : x ∈ F.preorder) :
    ∃ anc left kids right, Loc F anc left x kids right :=
  Loc.exists_aux F x hx (fun l _ _ _ e => ⟨[], l, .root e⟩)

theorem Forest.Loc.seg {g : Bool} {nodes : Slice α} {F : Forest (Lab α)} (h : Seg g nodes F none none none)
    {anc : List (Lab α)} {left kids right : Forest (Lab α)} {x : Lab α}
    (hl : Loc F anc left x kids right) :
    Seg g nodes (left ++ .cons x kids right) (anc.head?.map (·.id)) none none := by
  induction hl with
  | root e => subst e; exact h
  | child _ e ih =>
    have := (Seg_append.1 ih).2
    have := this.2.1
    rw [e] at this; exact this

theorem Forest.Loc.links {g : Bool} {nodes : Slice α} {F : Forest (Lab α)} (h : Seg g nodes F none none none)
    {anc : List (Lab α)} {left kids right : Forest (Lab α)} {x : Lab α}
    (hl : Loc F anc left x kids right) :
    ∃ l, LastRel g (some x.id) l kids ∧ nodes[x.id]? = some
      (mkLinks x (anc.head?.map (·.id)) left.lastId right.headId kids.headId l) := by
  have := (Seg_append.1 (hl.seg h)).2.1
  simpa using this

theorem Forest.Loc.kids {g : Bool} {nodes : Slice α} {F : Forest (Lab α)} (h : Seg g nodes F none none none)
    {anc : List (Lab α)} {left kids right : Forest (Lab α)} {x : Lab α}
    (hl : Loc F anc left x kids right) : Seg g nodes kids (some x.id) none none :=
  (Seg_append.1 (hl.seg h)).2.2.1

theorem Forest.Loc.right {g : Bool} {nodes : Slice α} {F : Forest (Lab α)} (h : Seg g nodes F none none none)
    {anc : List (Lab α)} {left kids right : Forest (Lab α)} {x : Lab α}
    (hl : Loc F anc left x kids right) :
    Seg g nodes right (anc.head?.map (·.id)) (some x.id) none := (Seg_append.1 (hl.seg h)).2.2.2

/-- The ancestors of a location are locations. -/
theorem Forest.Loc.parent {β : Type} {F : Forest β} {p : β} {anc : List β} {left kids right : Forest β}
    {x : β} (h : Loc F (p :: anc) left x kids right) :
    ∃ l r, Loc F anc l p (left ++ .cons x kids right) r := by
  cases h with
  | child h e => exact ⟨_, _, e ▸ h⟩

/-- Siblings have the same ancestors. -/
theorem Forest.Loc.shift {β : Type} {F : Forest β} {anc : List β} {left k r left' k' r' : Forest β}
    {x y : β} (h : Loc F anc left x k r) (e : left ++ .cons x k r = left' ++ .cons y k' r') :
    Loc F anc left' y k' r' := by
  cases h with
  | root h => exact .root (h.trans e)
  | child h hk => exact .child h (hk.trans e)

theorem Seg.get_of_topIds {g : Bool} {nodes : Slice α} {F : Forest (Lab α)}
    {par prev nxt : Option Nat} (h : Seg g nodes F par prev nxt) {i : Nat} (hi : i ∈ F.ids) :
    nodeAt nodes i = some i := by
  obtain ⟨x, hx, rfl⟩ := List.mem_map.1 hi
  obtain ⟨l, hl, _⟩ := h.lookup hx
  simp [nodeAt, hl]

/-! ## Traversals -/

/-- Traversal with events and depths. -/
def devents (e : Event) (d : Int) : Forest (Lab α) → List (Int × Event × Nat)
  | .nil => []
  | .cons x .nil r => (d, e, x.id) :: devents .next d r
  | .cons x k r => (d, e, x.id) :: (devents .down (d + 1) k ++ (d, .up, x.id) :: devents .next d r)

theorem devents_leaf (e : Event) (d : Int) (x : Lab α) (r : Forest (Lab α)) :
    devents e d (.cons x .nil r) = (d, e, x.id) :: devents .next d r := rfl

theorem devents_inner (e : Event) (d : Int) (x : Lab α) {k r : Forest (Lab α)} (hk : k ≠ .nil) :
    devents e d (.cons x k r) =
      (d, e, x.id) :: (devents .down (d + 1) k ++ (d, .up, x.id) :: devents .next d r) := by
  cases k with
  | nil => exact absurd rfl hk
  | cons => rfl

theorem devents_append (e : Event) (d : Int) (F G : Forest (Lab α)) :
    devents e d (F ++ G) = devents e d F ++ devents (if F.isNil then e else .next) d G := by
  induction F generalizing e with
  | nil => rfl
  | cons x k r _ ih =>
    have ih' : devents .next d (r ++ G) = devents .next d r ++ devents .next d G := by
      rw [ih .next]; simp
    rw [cons_append]
    by_cases hk : k = .nil
    · subst hk; simp [devents_leaf, ih']
    · rw [devents_inner _ _ _ hk, devents_inner _ _ _ hk, ih']; simp

/-- Where the traversal goes after a run of siblings. -/
def exitState (par nxt : Option Nat) (d : Int) : WalkEvents :=
  match nxt with
  | some n => ⟨some (n, .next), d⟩
  | none => ⟨par.map (·, .up), d - 1⟩

/-- `Trace nodes m w l w'`: repeated calls of `next` lead from `w` to `w'` and return `l` (not
empty); all states strictly in between have depth at least `m`. -/
inductive Trace (nodes : Slice α) (m : Int) :
    WalkEvents → List (Int × Event × Nat) → WalkEvents → Prop where
  | one {w w' : WalkEvents} {e : Event} {n : Nat} :
      WalkEvents.next nodes w = (w', .some (e, n)) → Trace nodes m w [(w.depth, e, n)] w'
  | cons {w w' w'' : WalkEvents} {e : Event} {n : Nat} {l : List (Int × Event × Nat)} :
      WalkEvents.next nodes w = (w', .some (e, n)) → m ≤ w'.depth → Trace nodes m w' l w'' →
      Trace nodes m w ((w.depth, e, n) :: l) w''

theorem Trace.append {nodes : Slice α} {m : Int} {w w' w'' : WalkEvents}
    {l l' : List (Int × Event × Nat)} (h : Trace nodes m w l w') (hm : m ≤ w'.depth)
    (h' : Trace nodes m w' l' w'') : Trace nodes m w (l ++ l') w'' := by
  induction h with
  | one e => exact .cons e hm h'
  | cons e hd _ ih => exact .cons e hd (ih hm h')

theorem Trace.mono {nodes : Slice α} {m m' : Int} {w w' : WalkEvents}
    {l : List (Int × Event × Nat)} (h : Trace nodes m w l w') (hm : m' ≤ m) :
    Trace nodes m' w l w' := by
  induction h with
  | one e => exact .one e
  | cons e hd _ ih => exact .cons e (Int.le_trans hm hd) ih

theorem step_leaf {nodes : Slice α} {x : Lab α} {par prev nxt l : Option Nat}
    (h : nodes[x.id]? = some (mkLinks x par prev nxt none l)) (e : Event) (d : Int) :
    WalkEvents.next nodes ⟨some (x.id, e), d⟩ = (exitState par nxt d, .some (e, x.id)) := by
  simp only [WalkEvents.next, h, WalkEvents.step, mkLinks, exitState]
  cases e <;> cases nxt <;> cases par <;> rfl

theorem step_up {nodes : Slice α} {x : Lab α} {par prev nxt f l : Option Nat}
    (h : nodes[x.id]? = some (mkLinks x par prev nxt f l)) (d : Int) :
    WalkEvents.next nodes ⟨some (x.id, .up), d⟩ = (exitState par nxt d, .some (.up, x.id)) := by
  simp only [WalkEvents.next, h, WalkEvents.step, mkLinks, exitState]
  cases nxt <;> first | rfl | (cases par <;> rfl)

theorem step_down {nodes : Slice α} {x : Lab α} {par prev nxt l : Option Nat} {f : Nat}
    (h : nodes[x.id]? = some (mkLinks x par prev nxt (some f) l)) {e : Event} (he : e ≠ .up)
    (d : Int) :
    WalkEvents.next nodes ⟨some (x.id, e), d⟩ = (⟨some (f, .down), d + 1⟩, .some (e, x.id)) := by
  simp only [WalkEvents.next, h, WalkEvents.step, mkLinks]

theorem trace_seg {g : Bool} {nodes : Slice α} (F : Forest (Lab α)) :
    ∀ {par prev nxt : Option Nat} {e : Event} (d : Int) {i : Nat},
    Seg g nodes F par prev nxt → e ≠ .up → F.headId = some i →
    Trace nodes d ⟨some (i, e), d⟩ (devents e d F) (exitState par nxt d) := by
  induction F with
  | nil => intro _ _ _ _ _ _ _ _ h; simp at h
  | cons x k r ihk ihr =>
    intro par prev nxt e d i h he hi
    obtain ⟨⟨l, hl, hx⟩, hk, hr⟩ := h
    have hi' : x.id = i := by simpa using hi
    subst hi'
    -- through the subtree of `x`
    have tx : Trace nodes d ⟨some (x.id, e), d⟩
        (if k.isNil then [(d, e, x.id)]
          else (d, e, x.id) :: (devents .down (d + 1) k ++ [(d, .up, x.id)]))
        (exitState par (r.headId.or nxt) d) := by
      by_cases hkn : k = .nil
      · subst hkn
        exact .one (w := ⟨some (x.id, e), d⟩) (step_leaf hx e d)
      · rw [if_neg (by cases k <;> simp_all)]
        obtain ⟨f, hf⟩ : ∃ f, k.headId = some f := by
          cases k with
          | nil => exact absurd rfl hkn
          | cons y _ _ => exact ⟨y.id, rfl⟩
        have t1 := ihk (e := .down) (d + 1) hk (by simp) hf
        rw [hf] at hx
        refine .cons (w := ⟨some (x.id, e), d⟩) (step_down hx he d) (by simp; omega) ?_
        have hs : exitState (some x.id) none (d + 1) = ⟨some (x.id, .up), d⟩ := by
          simp only [exitState, Option.map_some, WalkEvents.mk.injEq, true_and]; omega
        rw [hs] at t1
        refine (t1.mono (by omega)).append (by simp) ?_
        exact .one (w := ⟨some (x.id, .up), d⟩) (step_up hx d)
    by_cases hrn : r = .nil
    · subst hrn
      simp only [headId_nil, Option.none_or] at tx
      by_cases hkn : k = .nil
      · subst hkn; exact tx
      · rw [if_neg (by cases k <;> simp_all)] at tx; rw [devents_inner _ _ _ hkn]; exact tx
    · obtain ⟨f, hf⟩ : ∃ f, r.headId = some f := by
        cases r with
        | nil => exact absurd rfl hrn
        | cons y _ _ => exact ⟨y.id, rfl⟩
      have t2 := ihr (e := .next) d hr (by simp) hf
      rw [hf] at tx
      simp only [Option.some_or, exitState] at tx
      have := tx.append (by simp) t2
      by_cases hkn : k = .nil
      · subst hkn; exact this
      · rw [if_neg (by cases k <;> simp_all)] at this; rw [devents_inner _ _ _ hkn]; simpa using this

/-- `Rest nodes w l`: from `w` the traversal returns `l` and ends. -/
inductive Rest (nodes : Slice α) : WalkEvents → List (Int × Event × Nat) → Prop where
  | done {w : WalkEvents} : w.node = none → Rest nodes w []
  | item {w w' : WalkEvents} {e : Event} {n : Nat} {l : List (Int × Event × Nat)} :
      WalkEvents.next nodes w = (w', .some (e, n)) → Rest nodes w' l →
      Rest nodes w ((w.depth, e, n) :: l)

theorem Trace.rest {nodes : Slice α} {m : Int} {w w' : WalkEvents}
    {l l' : List (Int × Event × Nat)} (h : Trace nodes m w l w') (h' : Rest nodes w' l') :
    Rest nodes w (l ++ l') := by
  induction h with
  | one e => exact .item e h'
  | cons e _ _ ih => exact .item e (ih h')

/-- After a run of siblings at the outermost level. -/
theorem Rest.exit_root {nodes : Slice α} (d : Int) : Rest nodes (exitState none none d) [] :=
  .done rfl

theorem rest_seg {g : Bool} {nodes : Slice α} {F : Forest (Lab α)} {par prev nxt : Option Nat}
    (h : Seg g nodes F par prev nxt) (d : Int) {l : List (Int × Event × Nat)}
    (hr : Rest nodes (exitState par nxt d) l) :
    Rest nodes (exitState par (F.headId.or nxt) d) (devents .next d F ++ l) := by
  cases hi : F.headId with
  | none => rw [headId_eq_none.1 hi]; exact hr
  | some i => exact (trace_seg F d h (by simp) hi).rest hr

/-- The event with which a node is entered. -/
def enter (anc : List (Lab α)) (left : Forest (Lab α)) : Event :=
  if ! anc.isEmpty && left.isNil then .down else .next

theorem enter_ne (anc : List (Lab α)) (left : Forest (Lab α)) : enter anc left ≠ .up := by
  unfold enter; split <;> simp

theorem rest_loc {g : Bool} {nodes : Slice α} {F : Forest (Lab α)}
    (h : Seg g nodes F none none none) {anc : List (Lab α)} {left kids right : Forest (Lab α)}
    {x : Lab α} (hl : Loc F anc left x kids right) (D : Int) :
    ∃ pre post, devents .next D F =
        pre ++ (devents (enter anc left) (D + anc.length) (.single x kids) ++ post) ∧
      Rest nodes (exitState (anc.head?.map (·.id)) right.headId (D + anc.length)) post := by
  induction hl with
  | @root left x kids right e =>
    have hr := (Loc.root e).right h
    refine ⟨devents .next D left, devents .next D right, ?_, ?_⟩
    · have h1 : F = left ++ (single x kids ++ right) := by rw [e]; rfl
      rw [h1, devents_append, devents_append]
      simp [enter]
    · have := rest_seg hr D (Rest.exit_root D)
      simpa using this
  | @child anc l p k r left x kids right hp e ih =>
    obtain ⟨pre, post, e1, e2⟩ := ih
    have hr := (Loc.child hp e).right h
    have hk : k ≠ .nil := by rw [e]; cases left <;> simp
    rw [devents_inner _ _ _ hk] at e1
    have h1 : k = left ++ (single x kids ++ right) := by rw [e]; rfl
    have hd : D + ((p :: anc).length : Int) = D + anc.length + 1 := by simp; omega
    have hE : enter (p :: anc) left = if left.isNil then .down else .next := by
      cases left <;> simp [enter]
    refine ⟨pre ++ (D + anc.length, enter anc l, p.id) :: devents .down (D + anc.length + 1) left,
      devents .next (D + anc.length + 1) right ++ (D + anc.length, .up, p.id) :: post, ?_, ?_⟩
    · rw [e1, hd, hE]
      have h2 : devents .down (D + anc.length + 1) k = devents .down (D + anc.length + 1) left ++
          (devents (if left.isNil then .down else .next) (D + anc.length + 1) (single x kids) ++
            devents .next (D + anc.length + 1) right) := by
        rw [h1, devents_append, devents_append]; simp
      rw [h2]
      simp [devents]
    · rw [hd]
      simp only [List.head?_cons, Option.map_some] at hr ⊢
      obtain ⟨l', _, hx⟩ := hp.links h
      have hs : exitState (some p.id) none (D + anc.length + 1) =
          ⟨some (p.id, .up), D + anc.length⟩ := by
        simp only [exitState, Option.map_some, WalkEvents.mk.injEq, true_and]; omega
      have h3 : Rest nodes (exitState (some p.id) none (D + anc.length + 1))
          ((D + anc.length, .up, p.id) :: post) := by
        rw [hs]
        exact .item (w := ⟨some (p.id, .up), D + anc.length⟩) (step_up hx _) e2
      have := rest_seg hr (D + anc.length + 1) h3
      simpa using this

end Syntree
