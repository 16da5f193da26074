import Verif.Spec.Forest

/-! Basic lemmas about nested lists. -/

namespace Syntree
namespace Forest

variable {β γ : Type} {α : Type}

@[simp] theorem nil_append (G : Forest β) : (nil : Forest β) ++ G = G := rfl
@[simp] theorem cons_append (x : β) (k r G : Forest β) :
    (cons x k r) ++ G = cons x k (r ++ G) := rfl
@[simp] theorem append_nil (F : Forest β) : F ++ nil = F := by
  induction F with
  | nil => rfl
  | cons x k r _ ih => simp [ih]
theorem append_assoc (F G H : Forest β) : (F ++ G) ++ H = F ++ (G ++ H) := by
  induction F with
  | nil => rfl
  | cons x k r _ ih => simp [ih]

@[simp] theorem tops_nil : (nil : Forest β).tops = [] := rfl
@[simp] theorem tops_cons (x : β) (k r : Forest β) : (cons x k r).tops = x :: r.tops := rfl
@[simp] theorem tops_append (F G : Forest β) : (F ++ G).tops = F.tops ++ G.tops := by
  induction F with
  | nil => rfl
  | cons x k r _ ih => simp [ih]

@[simp] theorem preorder_nil : (nil : Forest β).preorder = [] := rfl
@[simp] theorem preorder_cons (x : β) (k r : Forest β) :
    (cons x k r).preorder = x :: (k.preorder ++ r.preorder) := rfl
@[simp] theorem preorder_append (F G : Forest β) :
    (F ++ G).preorder = F.preorder ++ G.preorder := by
  induction F with
  | nil => rfl
  | cons x k r _ ih => simp [ih]

@[simp] theorem width_eq (F : Forest β) : F.width = F.tops.length := by
  induction F with
  | nil => rfl
  | cons x k r _ ih => simp [width, ih, Nat.add_comm]

@[simp] theorem isNil_nil : (nil : Forest β).isNil = true := rfl
@[simp] theorem isNil_cons (x : β) (k r : Forest β) : (cons x k r).isNil = false := rfl

theorem take_append_drop (n : Nat) (F : Forest β) : F.take n ++ F.drop n = F := by
  induction F generalizing n with
  | nil => cases n <;> rfl
  | cons x k r _ ih => cases n <;> simp [take, drop, ih]

theorem tops_drop (n : Nat) (F : Forest β) : (F.drop n).tops = F.tops.drop n := by
  induction F generalizing n with
  | nil => cases n <;> rfl
  | cons x k r _ ih => cases n <;> simp [drop, ih]

theorem tops_take (n : Nat) (F : Forest β) : (F.take n).tops = F.tops.take n := by
  induction F generalizing n with
  | nil => cases n <;> rfl
  | cons x k r _ ih => cases n <;> simp [take, ih]

theorem preorder_length (F : Forest β) : F.preorder.length = F.size := by
  induction F with
  | nil => rfl
  | cons x k r ihk ihr => simp [size, ihk, ihr]; omega

theorem size_append (F G : Forest β) : (F ++ G).size = F.size + G.size := by
  simp [← preorder_length]

theorem tops_sublist (F : Forest β) : F.tops.Sublist F.preorder := by
  induction F with
  | nil => simp
  | cons x k r _ ih =>
    simp only [tops_cons, preorder_cons]
    exact (ih.trans (List.sublist_append_right _ _)).cons_cons x

@[simp] theorem spine_nil : (nil : Forest β).spine = [] := rfl
theorem spine_single (x : β) (k : Forest β) : (cons x k nil).spine = x :: k.spine := rfl
theorem spine_append (F G : Forest β) (h : G ≠ nil) : (F ++ G).spine = G.spine := by
  induction F with
  | nil => rfl
  | cons x k r _ ih =>
    cases r with
    | nil => cases G with
      | nil => exact absurd rfl h
      | cons => rfl
    | cons => simpa [spine] using ih

/-! ids -/

@[simp] theorem ids_nil : (nil : Forest (Lab α)).ids = [] := rfl
@[simp] theorem ids_cons (x : Lab α) (k r : Forest (Lab α)) :
    (cons x k r).ids = x.id :: (k.ids ++ r.ids) := by simp [ids]
@[simp] theorem ids_append (F G : Forest (Lab α)) : (F ++ G).ids = F.ids ++ G.ids := by simp [ids]
@[simp] theorem topIds_nil : (nil : Forest (Lab α)).topIds = [] := rfl
@[simp] theorem topIds_cons (x : Lab α) (k r : Forest (Lab α)) :
    (cons x k r).topIds = x.id :: r.topIds := rfl
@[simp] theorem topIds_append (F G : Forest (Lab α)) :
    (F ++ G).topIds = F.topIds ++ G.topIds := by simp [topIds]

theorem topIds_sublist (F : Forest (Lab α)) : F.topIds.Sublist F.ids := (tops_sublist F).map _

theorem mem_ids_of_mem_topIds {F : Forest (Lab α)} {i : Nat} (h : i ∈ F.topIds) : i ∈ F.ids :=
  (topIds_sublist F).subset h

def headId (F : Forest (Lab α)) : Option Nat := F.topIds.head?
def lastId (F : Forest (Lab α)) : Option Nat := F.topIds.getLast?

@[simp] theorem headId_nil : (nil : Forest (Lab α)).headId = none := rfl
@[simp] theorem headId_cons (x : Lab α) (k r : Forest (Lab α)) :
    (cons x k r).headId = some x.id := rfl
theorem headId_append (F G : Forest (Lab α)) : (F ++ G).headId = F.headId.or G.headId := by
  cases F <;> simp
@[simp] theorem lastId_nil : (nil : Forest (Lab α)).lastId = none := rfl
theorem lastId_append (F G : Forest (Lab α)) : (F ++ G).lastId = G.lastId.or F.lastId := by
  simp [lastId, List.getLast?_append]
@[simp] theorem lastId_single (x : Lab α) (k : Forest (Lab α)) :
    (cons x k nil).lastId = some x.id := rfl
theorem lastId_cons (x : Lab α) (k r : Forest (Lab α)) :
    (cons x k r).lastId = r.lastId.or (some x.id) := by
  have := lastId_append (cons x k nil) r
  simpa using this

theorem lastId_mem_topIds {F : Forest (Lab α)} {i : Nat} (h : F.lastId = some i) : i ∈ F.topIds :=
  List.mem_of_getLast? h
theorem lastId_mem {F : Forest (Lab α)} {i : Nat} (h : F.lastId = some i) : i ∈ F.ids :=
  mem_ids_of_mem_topIds (lastId_mem_topIds h)
theorem headId_mem_topIds {F : Forest (Lab α)} {i : Nat} (h : F.headId = some i) : i ∈ F.topIds :=
  List.mem_of_head? h
theorem headId_mem {F : Forest (Lab α)} {i : Nat} (h : F.headId = some i) : i ∈ F.ids :=
  mem_ids_of_mem_topIds (headId_mem_topIds h)

theorem lastId_isSome {F : Forest (Lab α)} (h : F ≠ nil) : ∃ i, F.lastId = some i := by
  cases F with
  | nil => exact absurd rfl h
  | cons x k r =>
    rw [lastId_cons]; cases r.lastId <;> simp

theorem lastId_eq_none {F : Forest (Lab α)} : F.lastId = none ↔ F = nil := by
  constructor
  · intro h; by_cases hf : F = nil
    · exact hf
    · obtain ⟨i, hi⟩ := lastId_isSome hf; simp [hi] at h
  · rintro rfl; rfl

theorem headId_eq_none {F : Forest (Lab α)} : F.headId = none ↔ F = nil := by
  cases F <;> simp

/-- The last element is on the spine. -/
theorem lastId_spine {F : Forest (Lab α)} {i : Nat} (h : F.lastId = some i) :
    i ∈ F.spine.map (·.id) := by
  induction F with
  | nil => simp at h
  | cons x k r _ ih =>
    cases r with
    | nil => simp at h; simp [spine, h]
    | cons y k' r' =>
      have : (cons y k' r').lastId = some i := by
        rw [lastId_cons] at h
        obtain ⟨j, hj⟩ := lastId_isSome (F := cons y k' r') (by simp)
        rw [hj] at h ⊢; simpa using h
      simpa [spine] using ih this

theorem mem_preorder_of_spine {F : Forest β} {x : β} (h : x ∈ F.spine) : x ∈ F.preorder := by
  induction F with
  | nil => simp at h
  | cons y k r ihk ihr =>
    cases r with
    | nil =>
      simp only [spine_single, List.mem_cons] at h
      rcases h with h | h
      · simp [h]
      · simp [ihk h]
    | cons z k' r' =>
      have := ihr (by simpa [spine] using h)
      rw [preorder_cons]
      exact List.mem_cons_of_mem _ (List.mem_append_right _ this)

end Forest
end Syntree
