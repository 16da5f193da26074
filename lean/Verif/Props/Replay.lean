import Verif.Spec.Replay
import Verif.Props.Order
import Verif.Props.Alike

/-!
# Property C81: a tree can be rebuilt from a walk over its events
-/

namespace Syntree

open Forest

variable {α : Type} {fl fl' : Flavor} {t : Tree α} {F : Forest (Lab α)}

theorem replay_forest (nodes : Slice α) : ∀ (F : Forest (Lab α)) (e : Event), e ≠ .up →
    (∀ {anc : List (Lab α)} {left kids right : Forest (Lab α)} {x : Lab α}, Loc F anc left x kids right →
      nodeValue nodes x.id = some x.data ∧ nodeSpan nodes x.id = some x.span ∧
        hasChildren nodes x.id = ! kids.isNil) →
    replay nodes ((F.events e).map fun p => (p.1, p.2.id)) = F.literal.calls := by
  intro F
  induction F with
  | nil => intro e _ _; rfl
  | cons x k r ihk ihr =>
    intro e he hF
    have hr := ihr .next (by simp) (fun hl => by
      obtain ⟨left', hl', _⟩ := hl.in_rest (x := x) (k := k)
      exact hF hl')
    obtain ⟨x1, x2, x3⟩ := hF (.root (left := .nil) rfl)
    have hone : replayOne nodes (e, x.id) = some (if hasChildren nodes x.id then .open x.data
        else .token x.data (x.span.stop - x.span.start)) := by
      cases e with
      | up => exact absurd rfl he
      | next => simp only [replayOne, x1, x2]
      | down => simp only [replayOne, x1, x2]
    rw [x3] at hone
    cases k with
    | nil =>
      have hone : replayOne nodes (e, x.id) = some (.token x.data (x.span.stop - x.span.start)) := hone
      simp only [Forest.events, List.map_cons, replay, List.filterMap_cons, hone]
      rw [replay] at hr
      rw [hr]; rfl
    | cons y k1 k2 =>
      have hone : replayOne nodes (e, x.id) = some (.open x.data) := hone
      have hk := ihk .down (by simp) (fun hl => hF hl.in_kids)
      rw [replay] at hk hr
      have hev : (Forest.cons x (.cons y k1 k2) r).events e =
        (e, x) :: ((Forest.cons y k1 k2).events .down ++ (.up, x) :: r.events .next) := rfl
      have hup : replayOne nodes (.up, x.id) = some .close := rfl
      rw [hev, replay, List.map_cons, List.map_append, List.map_cons, List.filterMap_cons, hone,
        List.filterMap_append, hk, List.filterMap_cons, hup, hr]
      rfl

/-- C81: walk over the events of any tree, copy every node that is entered (with `open` if it has children, with
`token` otherwise), and `close` where a node is left. Then, if the nodes and the text fit the flavor of the new
builder, no call fails, `build` succeeds, and the new tree lists the same nodes in the same nesting, with ids in
document order and with the tokens laid end to end. If they do not fit, a call fails with `Overflow`. -/
theorem C81_rebuild (h : Made fl t F) {evs : List (Event × Nat)}
    (hw : Yields (WalkEvents.next t.nodes) t.walk evs) :
    (F.literal.Fits fl' → ∃ u, Sys.init.tryRun fl' (replay t.nodes evs) = .ok (Sys.init.run fl' (replay t.nodes evs)).1 ∧
      (Sys.init.run fl' (replay t.nodes evs)).1.b.build = .ok u ∧
      Built fl' (replay t.nodes evs) u (F.relaid fl'.ik) ∧ u.listing = some (F.relaid fl'.ik).listing ∧
      u.len = t.len ∧ u.span = ⟨0, F.literal.len fl'.ik⟩) ∧
    (¬ F.literal.Fits fl' → Sys.init.tryRun fl' (replay t.nodes evs) = .error .overflow) := by
  have e := hw.det (C07_walk_events_bracketed h)
  have hcalls : replay t.nodes evs = F.literal.calls := by
    rw [e]
    refine replay_forest t.nodes F .next (by simp) ?_
    intro anc left kids right x hl
    obtain ⟨_, a, b, c, _⟩ := h.represents.node_get hl
    exact ⟨a, b, c⟩
  rw [hcalls]
  refine ⟨fun hf => ?_, fun hf => ?_⟩
  · obtain ⟨u, h1, h2, h3, h4, h5⟩ := C01_literal_round_trip (fl := fl') F.literal (literal_plain F) hf
    rw [Lit.tree_eq] at h1
    rw [Sys.tryRun_eq]
    cases hfe : firstErr (Sys.init.run fl' F.literal.calls).2 with
    | some e => rw [hfe] at h1; cases h1
    | none =>
      rw [hfe] at h1
      exact ⟨u, rfl, h1, h5, h2, by rw [h3, literal_count]; exact h.represents.size, h4⟩
  · have h1 := C01_literal_overflow (fl := fl') F.literal (literal_plain F) hf
    rw [Lit.tree_eq] at h1
    rw [Sys.tryRun_eq]
    cases hfe : firstErr (Sys.init.run fl' F.literal.calls).2 with
    | some e => rw [hfe] at h1; cases h1; rfl
    | none =>
      rw [hfe] at h1
      simp only [Builder.build] at h1
      split at h1 <;> simp at h1

/-- Rebuilt with other pointers and another index, 16 bits wide each. -/
example {evs : List (Event × Nat)} (hw : Yields (WalkEvents.next demoTree.nodes) demoTree.walk evs) :
    ∃ u, (Sys.init.run { Flavor.default with ik := .bits 16, width := 16 } (replay demoTree.nodes evs)).1.b.build = .ok u :=
  have ⟨u, _, h, _⟩ := (C81_rebuild (fl' := { Flavor.default with ik := .bits 16, width := 16 }) demo_made hw).1
    ⟨by decide, by show 4 < 2 ^ 16; decide⟩
  ⟨u, h⟩

/-- C81: if the cursor has placed all nodes of the tree, and no token was lost for want of pointers, then the tree
rebuilt with the same flavor is equal to it, and has the same span. -/
theorem C81_rebuilt_is_equal [DecidableEq α] {ops : List (Op α)} (h : Built fl ops t F)
    (hc : ∀ op ∈ ops, op.cursorDriven = true) (hsp : Spare fl t.len (Sys.init.run fl ops).2)
    {evs : List (Event × Nat)} (hw : Yields (WalkEvents.next t.nodes) t.walk evs) :
    ∃ u, (Sys.init.run fl (replay t.nodes evs)).1.b.build = .ok u ∧ t.eq u = some true ∧ u.eq t = some true ∧
      u.span = t.span := by
  obtain ⟨hfits, e2, hspan, hsize⟩ := h.canonical hc hsp
  obtain ⟨u, _, h2, h3, _, _, h4⟩ := (C81_rebuild (fl' := fl) (.built h) hw).1 hfits
  refine ⟨u, h2, ?_, ?_, ?_⟩
  · rw [C39_eq_iff_same_forest (.built h) (.built h3), Forest.relaid, e2]; simp
  · rw [C39_eq_iff_same_forest (.built h3) (.built h), Forest.relaid, e2]; simp
  · rw [h4, hspan]

example : ∃ u, (Sys.init.run Flavor.default
      (replay lateTree.nodes [(.next, 2), (.down, 0), (.next, 1), (.up, 2)])).1.b.build = .ok u ∧
      lateTree.eq u = some true :=
  have ⟨u, h1, h2, _⟩ := C81_rebuilt_is_equal late_built (by decide) (Or.inl (by decide))
    (C07_walk_events_bracketed (.built late_built))
  ⟨u, h1, h2⟩

example : replay lateTree.nodes [(.next, 2), (.down, 0), (.next, 1), (.up, 2)] = earlyOps := rfl

end Syntree
