import Verif.Spec.Address
import Verif.Props.Small

/-!
# C96: the ids of nodes, whatever the storage does

`Node::id` makes a `NonZero` from a difference of addresses without a check, which is undefined
behavior if the result is zero. `Handed`: `Spec/Address.lean`.
-/

namespace Syntree

variable {w usz size : Nat}

theorem get_lt_of_valid {p : RawPtr w} (hp : p.Valid) (usz : Nat) : p.get usz < 2 ^ w - 1 := by
  obtain ⟨h1, h2⟩ := hp
  have e : p.raw + (2 ^ w - 1) = p.raw - 1 + 2 ^ w := by omega
  have : (p.raw + (2 ^ w - 1)) % 2 ^ w = p.raw - 1 := by
    rw [e, Nat.add_mod_right, Nat.mod_eq_of_lt (by omega)]
  unfold RawPtr.get
  rw [this]
  exact Nat.lt_of_le_of_lt (Nat.mod_le _ _) (by omega)

theorem slice_id {s : SliceAt} {i : Nat} (hs : s.InMemory usz size) (hz : 0 < size) (hi : i < s.len)
    (hw : i < 2 ^ w - 1) :
    let p := (⟨s.base + i * size, s⟩ : NodeAt).id w usz size
    p.Valid ∧ RawPtr.new w i = some p ∧ p.get usz = i := by
  unfold SliceAt.InMemory at hs
  have h1 : (i + 1) * size ≤ s.len * size := Nat.mul_le_mul_right _ hi
  have h2 : i * size + size = (i + 1) * size := by rw [Nat.add_mul, Nat.one_mul]
  have h3 : i ≤ i * size := Nat.le_mul_of_pos_right _ hz
  have key := idFromAddress_checked (w := w) (usz := usz) (base := s.base) hw hz (by omega)
  have e : (⟨s.base + i * size, s⟩ : NodeAt).id w usz size =
      idFromAddress w s.base size (s.base + i * size) := by
    unfold NodeAt.id idFromAddress
    have : s.base + i * size + 2 ^ usz - s.base = i * size + 2 ^ usz := by omega
    simp only [this]
    rw [Nat.add_mod_right, Nat.mod_eq_of_lt (by omega), Nat.add_sub_cancel_left]
  rw [e]
  exact key

/-- C96: if the storage hands out the same slice when it is dereferenced twice in a row, then `id()`
of every node is a valid pointer (so the code without a check is sound), and looking it up in the
slice of the node gives the node back. This is so whatever the storage does otherwise: it may drop,
repeat or move what is pushed, fail, or hand out other slices later. -/
theorem C96_any_storage {ok : SliceAt → SliceAt → Prop} (hz : 0 < size)
    (hok : ∀ s s', ok s s' → s' = s ∧ s.InMemory usz size) {n : NodeAt}
    (h : Handed w usz size ok n) :
    (n.id w usz size).Valid ∧ (n.id w usz size).get usz < n.tree.len ∧
      treeGetAt usz size n.tree n.tree (n.id w usz size) = some n := by
  have key : ∃ i, i < n.tree.len ∧ i < 2 ^ w - 1 ∧ n.tree.InMemory usz size ∧
      n.current = n.tree.base + i * size := by
    have get : ∀ {s : SliceAt} {id : RawPtr w} {cur : Nat}, id.Valid → s.get usz size id = some cur →
        ∃ i, i < s.len ∧ i < 2 ^ w - 1 ∧ cur = s.base + i * size := by
      intro s id cur hv hg
      unfold SliceAt.get at hg
      split at hg
      · rename_i hl
        exact ⟨_, hl, get_lt_of_valid hv usz, by cases hg; rfl⟩
      · cases hg
    induction h with
    | @get s s' id n hs hv hg =>
      obtain ⟨rfl, hm⟩ := hok _ _ hs
      unfold treeGetAt at hg
      cases hc : s'.get usz size id with
      | none => rw [hc] at hg; cases hg
      | some cur =>
        rw [hc] at hg; cases hg
        obtain ⟨i, a, b, c⟩ := get hv hc
        exact ⟨i, a, b, hm, c⟩
    | @iter s s' id cur hs hv hg =>
      obtain ⟨rfl, hm⟩ := hok _ _ hs
      obtain ⟨i, a, b, c⟩ := get hv hg
      exact ⟨i, a, b, hm, c⟩
    | @follow n m id _ hv hg ih =>
      obtain ⟨_, _, _, hm, _⟩ := ih
      unfold NodeAt.nodeAt at hg
      cases hc : n.tree.get usz size id with
      | none => rw [hc] at hg; cases hg
      | some cur =>
        rw [hc] at hg; cases hg
        obtain ⟨i, a, b, c⟩ := get hv hc
        exact ⟨i, a, b, hm, c⟩
  obtain ⟨i, h1, h2, h3, h4⟩ := key
  obtain ⟨cur, s⟩ := n
  simp only at h1 h3 h4
  subst h4
  obtain ⟨k1, _, k3⟩ := slice_id (w := w) h3 hz h1 h2
  exact ⟨k1, by rw [k3]; exact h1, by simp only [treeGetAt, SliceAt.get, k3, if_pos h1]⟩

/-- C96: two nodes of the same slice have the same id exactly if they are the same node. -/
theorem C96_ids_distinct {ok : SliceAt → SliceAt → Prop} (hz : 0 < size)
    (hok : ∀ s s', ok s s' → s' = s ∧ s.InMemory usz size) {n m : NodeAt}
    (hn : Handed w usz size ok n) (hm : Handed w usz size ok m) (ht : n.tree = m.tree) :
    n.id w usz size = m.id w usz size ↔ n = m := by
  constructor
  · intro e
    have h1 := (C96_any_storage hz hok hn).2.2
    have h2 := (C96_any_storage hz hok hm).2.2
    rw [e, ht] at h1
    exact Option.some.inj (h1.symm.trans h2)
  · rintro rfl; rfl

/-- C96: without the assumption this fails, for pointers of every width: storage that hands out two
slices in turn (each of them in memory, and the pointer valid) makes `Tree::get` return a node whose
`id()` is the zero that `NonZero` excludes: undefined behavior from safe code. -/
theorem C96_two_slices_fails (hw : 1 ≤ w) (hz : 0 < size) (hu : 2 ^ w * size ≤ 2 ^ usz) :
    ∃ (s s' : SliceAt) (id : RawPtr w) (n : NodeAt), s.InMemory usz size ∧ s'.InMemory usz size ∧
      id.Valid ∧ treeGetAt usz size s s' id = some n ∧ ¬ (n.id w usz size).Valid ∧
      (n.id w usz size).raw = 0 := by
  have hp : 0 < 2 ^ w := Nat.two_pow_pos w
  have h1 : (2 ^ w - 1) * size + size = 2 ^ w * size := by
    rw [← Nat.succ_mul]; congr 1; omega
  obtain ⟨d1, _, d3⟩ := C45_default (w := w) (usz := usz) hw
  have e : ((⟨(2 ^ w - 1) * size, ⟨0, 1⟩⟩ : NodeAt).id w usz size).raw = 0 := by
    simp only [NodeAt.id, RawPtr.newUnchecked, Nat.sub_zero]
    rw [Nat.add_mod_right, Nat.mod_eq_of_lt (b := 2 ^ usz) (by omega), Nat.mul_div_cancel _ hz,
      Nat.mod_eq_of_lt (a := 2 ^ w - 1) (by omega), Nat.sub_add_cancel hp, Nat.mod_self]
  refine ⟨⟨(2 ^ w - 1) * size, 1⟩, ⟨0, 1⟩, .default w, ⟨(2 ^ w - 1) * size, ⟨0, 1⟩⟩, ?_, ?_, d1, ?_, ?_, e⟩
  · simp only [SliceAt.InMemory]; omega
  · simp only [SliceAt.InMemory]; omega
  · simp [treeGetAt, SliceAt.get, d3]
  · rintro ⟨k, _⟩; omega

/-! Cases: elements of 40 bytes, 64 bit addresses, 8 bit pointers. -/

/-- The second of three elements, reached from the first. -/
example : ((⟨1040, ⟨1000, 3⟩⟩ : NodeAt).id 8 64 40).Valid ∧
    ((⟨1040, ⟨1000, 3⟩⟩ : NodeAt).id 8 64 40).get 64 < 3 ∧
    treeGetAt 64 40 ⟨1000, 3⟩ ⟨1000, 3⟩ ((⟨1040, ⟨1000, 3⟩⟩ : NodeAt).id 8 64 40) =
      some ⟨1040, ⟨1000, 3⟩⟩ :=
  C96_any_storage (w := 8) (usz := 64) (ok := fun s s' => s' = s ∧ s.InMemory 64 40) (by decide)
    (fun _ _ h => h)
    (.follow (id := ⟨2⟩) (.get (id := ⟨1⟩) (s := ⟨1000, 3⟩) ⟨rfl, by unfold SliceAt.InMemory; decide⟩
      (by unfold RawPtr.Valid; decide) rfl) (by unfold RawPtr.Valid; decide) rfl)

example : (⟨1000, ⟨1000, 3⟩⟩ : NodeAt).id 8 64 40 = (⟨1040, ⟨1000, 3⟩⟩ : NodeAt).id 8 64 40 ↔
    (⟨1000, ⟨1000, 3⟩⟩ : NodeAt) = ⟨1040, ⟨1000, 3⟩⟩ :=
  C96_ids_distinct (w := 8) (usz := 64) (ok := fun s s' => s' = s ∧ s.InMemory 64 40) (by decide)
    (fun _ _ h => h)
    (.iter (s := ⟨1000, 3⟩) (s' := ⟨1000, 3⟩) (id := ⟨1⟩) ⟨rfl, by unfold SliceAt.InMemory; decide⟩
      (by unfold RawPtr.Valid; decide) rfl)
    (.iter (s := ⟨1000, 3⟩) (s' := ⟨1000, 3⟩) (id := ⟨2⟩) ⟨rfl, by unfold SliceAt.InMemory; decide⟩
      (by unfold RawPtr.Valid; decide) rfl) rfl

example : ∃ (s s' : SliceAt) (id : RawPtr 8) (n : NodeAt), s.InMemory 64 40 ∧ s'.InMemory 64 40 ∧
      id.Valid ∧ treeGetAt 64 40 s s' id = some n ∧ ¬ (n.id 8 64 40).Valid ∧ (n.id 8 64 40).raw = 0 :=
  C96_two_slices_fails (by decide) (by decide) (by decide)

end Syntree
