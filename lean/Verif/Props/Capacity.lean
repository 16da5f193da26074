import Verif.Proof.Capacity
import Verif.Props.Growth

/-!
# Capacity: C100
-/

namespace Syntree

variable {α : Type} {fl : Flavor} {v : VecCaps}

/-- Capacities for the examples: `Vec` starts with four elements and doubles. -/
def doubling : VecCaps where
  withCap := id
  cloned := id
  grown := fun n => max 4 (2 * n)
  withCap_ge := fun _ => Nat.le_refl _
  cloned_ge := fun _ => Nat.le_refl _
  grown_gt := fun n => by omega

/-- Five tokens. -/
def fiveTokens : List (Op Nat) := [.token 1 1, .token 2 1, .token 3 1, .token 4 1, .token 5 1]

/-- C100: whatever was done to get a tree, its capacity is at least the number of its nodes. -/
theorem C100_enough_room {t : Tree α} {cap : Nat} (h : Roomy v t cap) : t.len ≤ cap := h.le

example : ∃ (t : Tree Nat) (cap : Nat), Roomy doubling t cap ∧ t.len = 5 ∧ cap = 8 ∧ t.len ≤ cap := by
  have h : Roomy doubling _ _ := .built (t := (Sys.init.run Flavor.default fiveTokens).1.b.tree)
    ((InUse.new (v := doubling) (fl := Flavor.default)).run fiveTokens) rfl
  exact ⟨_, _, h, by decide +kernel, by decide +kernel, C100_enough_room h⟩

/-- C100: a builder has no capacity exactly as long as nothing has been put into it. -/
theorem C100_nothing_allocated (v : VecCaps) (fl : Flavor) (ops : List (Op α)) :
    Sys.init.capRun v fl 0 ops = 0 ↔ (Sys.init.run fl ops).1.b.tree.len = 0 :=
  ⟨capRun_pos Sys.init 0 ops fun _ => rfl, capRun_zero Sys.init ops⟩

example : Sys.init.capRun doubling Flavor.default 0
    ([.checkpoint, .close, .setCursor 7] : List (Op Nat)) = 0 ∧
    Sys.init.capRun doubling Flavor.default 0 fiveTokens ≠ 0 :=
  ⟨(C100_nothing_allocated _ _ _).2 rfl, fun h =>
    absurd ((C100_nothing_allocated _ _ _).1 h) (by decide +kernel)⟩

/-- C100: no call on a builder makes the capacity smaller, and if a call changes it, then every place
was taken before the call and the call added one node. -/
theorem C100_grows_when_full {s : Sys α} {cap : Nat} (h : InUse v fl s cap) (op : Op α) :
    cap ≤ s.capStep v fl cap op ∧
    (s.capStep v fl cap op ≠ cap → s.b.tree.len = cap ∧
      (s.step fl op).1.b.tree.len = cap + 1) := by
  obtain ⟨_, a, b⟩ := capStep_spec (v := v) (fl := fl) s cap op h.le
  exact ⟨a, fun e => ⟨(b e).1, (b e).2.1⟩⟩

/-- The fifth token makes the storage grow from four to eight. -/
example : (Sys.init.run Flavor.default (fiveTokens.take 4)).1.capStep doubling Flavor.default 4
      (.token 5 1) = 8 ∧
    (Sys.init.run Flavor.default (fiveTokens.take 4)).1.b.tree.len = 4 := by
  have h : InUse doubling Flavor.default (Sys.init.run Flavor.default (fiveTokens.take 4)).1 4 :=
    InUse.run .new (fiveTokens.take 4)
  exact ⟨by decide +kernel, ((C100_grows_when_full h (.token 5 1)).2 (by decide +kernel)).1⟩

/-- C100: the result of an edit has at least the capacity of the tree that was edited, however many
nodes were removed, and exactly the capacity asked for at the start, without growing in between, if
that is enough for its nodes. -/
theorem C100_modify_capacity {c : ChangeSet} {t t' : Tree α} (cap : Nat)
    (hm : c.modify fl t = .ok t') :
    cap ≤ c.capModify v fl t cap ∧ v.withCap cap ≤ c.capModify v fl t cap ∧
    (t'.len ≤ v.withCap cap ↔ c.capModify v fl t cap = v.withCap cap) := by
  rw [capModify_pushes cap hm]
  obtain ⟨a, b⟩ := v.pushes_ge t'.len (v.withCap cap) 0 (Nat.zero_le _)
  have := v.withCap_ge cap
  refine ⟨by omega, b, fun h => v.pushes_same _ _ _ (by omega), fun h => by omega⟩

/-- C100: an edit with no ids registered never outgrows the capacity asked for at the start.
(`Obtained` says which trees there are, `Roomy` which capacities.) -/
theorem C100_copy_never_grows {t t' : Tree α} {cap : Nat} (ho : Obtained t) (h : Roomy v t cap)
    (hm : ChangeSet.new.modify fl t = .ok t') :
    ChangeSet.new.capModify v fl t cap = v.withCap cap := by
  refine (C100_modify_capacity cap hm).2.2.1 ?_
  have h1 := C87_no_growth ho hm
  have h2 := h.le
  have h3 := v.withCap_ge cap
  omega

/-- Five nodes with room for eight: nothing is registered, the copy has room for eight. Two removed,
the result still has. -/
example : ChangeSet.new.capModify doubling Flavor.default
      (Sys.init.run Flavor.default fiveTokens).1.b.tree 8 = 8 ∧
    8 ≤ ((ChangeSet.new.remove 1).remove 2).capModify doubling Flavor.default
      (Sys.init.run Flavor.default fiveTokens).1.b.tree 8 := by
  have h : Roomy doubling (Sys.init.run Flavor.default fiveTokens).1.b.tree 8 := .built
    (InUse.run (v := doubling) (fl := Flavor.default) .new fiveTokens) rfl
  have ho : Obtained (Sys.init.run Flavor.default fiveTokens).1.b.tree :=
    .built (ops := .new Flavor.default :: fiveTokens.map (.call 0)) (i := 0) rfl rfl rfl
  exact ⟨C100_copy_never_grows (fl := Flavor.default) ho h rfl,
    (C100_modify_capacity (fl := Flavor.default) 8 rfl).1⟩

/-- C100: if a full vector is at least doubled, then building moves, all in all, no more than two
nodes for each node of the result. -/
theorem C100_moves_are_linear (hv : ∀ n, 2 * n ≤ v.grown n) (fl : Flavor) (ops : List (Op α)) :
    Sys.init.moved v fl 0 ops ≤ 2 * (Sys.init.run fl ops).1.b.tree.len := by
  have := moved_le (fl := fl) hv ops Sys.init 0 0 (Nat.le_refl _) (Nat.le_refl _) (Nat.zero_le _)
  omega

example : Sys.init.moved doubling Flavor.default 0 fiveTokens = 4 ∧
    Sys.init.moved doubling Flavor.default 0 fiveTokens ≤
      2 * (Sys.init.run Flavor.default fiveTokens).1.b.tree.len :=
  ⟨by decide +kernel, C100_moves_are_linear (fun n => by simp only [doubling]; omega) _ _⟩

end Syntree
