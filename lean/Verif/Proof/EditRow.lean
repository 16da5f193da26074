import Verif.Proof.EditMany
import Verif.Spec.EditRow

/-! Removing nodes one after the other. -/

namespace Syntree

variable {α : Type} {fl : Flavor}

open Forest

/-- The same nested list, as far as `modify` cares: values, and lengths of childless nodes. -/
def CopySim (ik : IndexKind) : Forest (Lab α) → Forest (Lab α) → Prop
  | .nil, .nil => True
  | .cons x k r, .cons y k' r' =>
    x.data = y.data ∧ (k = .nil → x.span.len ik = y.span.len ik) ∧ CopySim ik k k' ∧ CopySim ik r r'
  | _, _ => False

theorem CopySim.refl (ik : IndexKind) : ∀ F : Forest (Lab α), CopySim ik F F
  | .nil => trivial
  | .cons _ k r => ⟨rfl, fun _ => rfl, CopySim.refl ik k, CopySim.refl ik r⟩

theorem CopySim.nil_iff {ik : IndexKind} : ∀ {F G : Forest (Lab α)}, CopySim ik F G → (F = .nil ↔ G = .nil)
  | .nil, .nil, _ => by simp
  | .cons .., .cons .., _ => by simp
  | .nil, .cons .., h => h.elim
  | .cons .., .nil, h => h.elim

theorem CopySim.trans {ik : IndexKind} : ∀ {F G H : Forest (Lab α)}, CopySim ik F G → CopySim ik G H → CopySim ik F H
  | .nil, .nil, .nil, _, _ => trivial
  | .cons .., .cons .., .cons .., ⟨a, b, c, d⟩, ⟨a', b', c', d'⟩ =>
    ⟨a.trans a', fun h => (b h).trans (b' (c.nil_iff.1 h)), c.trans c', d.trans d'⟩
  | .nil, .cons .., _, h, _ => h.elim
  | .cons .., .nil, _, h, _ => h.elim
  | .nil, .nil, .cons .., _, h => h.elim
  | .cons .., .cons .., .nil, _, h => h.elim

theorem sim_symm {ik : IndexKind} : ∀ {F G : Forest (Lab α)}, CopySim ik F G → CopySim ik G F
  | .nil, .nil, _ => trivial
  | .cons .., .cons .., ⟨a, b, c, d⟩ =>
    ⟨a.symm, fun h => (b (c.nil_iff.2 h)).symm, sim_symm c, sim_symm d⟩
  | .nil, .cons .., h => h.elim
  | .cons .., .nil, h => h.elim

theorem CopySim.size {ik : IndexKind} : ∀ {F G : Forest (Lab α)}, CopySim ik F G → F.size = G.size
  | .nil, .nil, _ => rfl
  | .cons .., .cons .., ⟨_, _, c, d⟩ => by simp only [Forest.size, c.size, d.size]
  | .nil, .cons .., h => h.elim
  | .cons .., .nil, h => h.elim

theorem CopySim.text {ik : IndexKind} : ∀ {F G : Forest (Lab α)}, CopySim ik F G → textOf ik F = textOf ik G
  | .nil, .nil, _ => rfl
  | .cons x .nil r, .cons y .nil r', ⟨_, b, _, d⟩ => by simp only [textOf, b rfl, d.text]
  | .cons x (.cons a k s) r, .cons y (.cons a' k' s') r', ⟨_, _, c, d⟩ => by
    have := CopySim.text c
    simp only [textOf] at this ⊢
    rw [this, d.text]
  | .cons _ .nil _, .cons _ (.cons ..) _, ⟨_, _, c, _⟩ => c.elim
  | .cons _ (.cons ..) _, .cons _ .nil _, ⟨_, _, c, _⟩ => c.elim
  | .nil, .cons .., h => h.elim
  | .cons .., .nil, h => h.elim

theorem CopySim.laid {ik : IndexKind} : ∀ {F G : Forest (Lab α)}, CopySim ik F G → ∀ pos i : Nat,
    laid ik pos i F = laid ik pos i G
  | .nil, .nil, _ => fun _ _ => rfl
  | .cons x .nil r, .cons y .nil r', ⟨a, b, _, d⟩ => fun pos i => by
    simp only [Syntree.laid, b rfl, a, d.laid]
  | .cons x (.cons u k s) r, .cons y (.cons u' k' s') r', ⟨a, _, c, d⟩ => fun pos i => by
    have h1 := CopySim.text c
    have h2 := CopySim.size c
    have h3 := CopySim.laid c pos (i + 1)
    rw [laid_inner _ _ _ x (k := .cons u k s) _ (by simp), laid_inner _ _ _ y (k := .cons u' k' s') _ (by simp),
      a, h1, h2, h3, d.laid]
  | .cons _ .nil _, .cons _ (.cons ..) _, ⟨_, _, c, _⟩ => c.elim
  | .cons _ (.cons ..) _, .cons _ .nil _, ⟨_, _, c, _⟩ => c.elim
  | .nil, .cons .., h => h.elim
  | .cons .., .nil, h => h.elim

theorem sim_shorten (ik : IndexKind) : ∀ F : Forest (Lab α), CopySim ik F F.shorten
  | .nil => trivial
  | .cons _ .nil r => ⟨rfl, fun _ => rfl, trivial, sim_shorten ik r⟩
  | .cons _ (.cons y k s) r => ⟨rfl, fun h => by simp at h, sim_shorten ik (.cons y k s), sim_shorten ik r⟩

theorem sim_laid (ik : IndexKind) : ∀ (F : Forest (Lab α)) (pos i : Nat), CopySim ik F (laid ik pos i F)
  | .nil, _, _ => trivial
  | .cons x .nil r, pos, i => by
    refine ⟨rfl, fun _ => ?_, trivial, sim_laid ik r _ _⟩
    rw [← tokenLen_eq ik ⟨pos, pos + x.span.len ik⟩]
    show _ = Lit.tokenLen ik (pos + _ - pos)
    rw [Nat.add_sub_cancel_left]
    cases ik <;> rfl
  | .cons x (.cons y k s) r, pos, i => by
    rw [laid_inner _ _ _ x (k := .cons y k s) _ (by simp)]
    exact ⟨rfl, fun h => by simp at h, sim_laid ik (.cons y k s) _ _, sim_laid ik r _ _⟩

theorem sim_copy (ik : IndexKind) (F : Forest (Lab α)) : CopySim ik F ((F.relaid ik).shorten) := by
  rw [Forest.relaid, laid_eq]
  exact (sim_laid ik F 0 0).trans (sim_shorten ik _)

theorem IsCopy.sim {r : Except Err (Tree α)} {F G : Forest (Lab α)} (h : IsCopy fl r F)
    (hs : CopySim fl.ik F G) : IsCopy fl r G := by
  have e1 : F.relaid fl.ik = G.relaid fl.ik := by
    rw [Forest.relaid, Forest.relaid, laid_eq, laid_eq, hs.laid]
  have e2 : F.literal.len fl.ik = G.literal.len fl.ik := by rw [textOf_eq, textOf_eq, hs.text]
  have e3 : F.literal.Fits fl ↔ G.literal.Fits fl := by
    unfold Lit.Fits
    rw [e2, count_literal, count_literal, hs.size]
  unfold IsCopy at h ⊢
  rw [e1, e2, e3, hs.size] at h
  exact h

theorem CopySim.lastPos {ik : IndexKind} : ∀ {F G : Forest (Lab α)}, CopySim ik F G → F.lastPos = G.lastPos
  | .nil, .nil, _ => rfl
  | .cons x k .nil, .cons y k' .nil, _ => by cases k <;> cases k' <;> rfl
  | .cons x k (.cons u l s), .cons y k' (.cons u' l' s'), ⟨_, _, c, d⟩ => by
    rw [lastPos_cons, lastPos_cons, CopySim.lastPos d, c.size]
  | .cons _ _ .nil, .cons _ _ (.cons ..), ⟨_, _, _, c⟩ => c.elim
  | .cons _ _ (.cons ..), .cons _ _ .nil, ⟨_, _, _, c⟩ => c.elim
  | .nil, .cons .., h => h.elim
  | .cons .., .nil, h => h.elim

theorem CopySim.dropLast {ik : IndexKind} : ∀ {F G : Forest (Lab α)}, CopySim ik F G →
    CopySim ik F.dropLast G.dropLast
  | .nil, .nil, _ => trivial
  | .cons x k .nil, .cons y k' .nil, _ => by cases k <;> cases k' <;> exact trivial
  | .cons x k (.cons u l s), .cons y k' (.cons u' l' s'), ⟨a, b, c, d⟩ => by
    have := CopySim.dropLast d
    exact ⟨a, b, c, this⟩
  | .cons _ _ .nil, .cons _ _ (.cons ..), ⟨_, _, _, c⟩ => c.elim
  | .cons _ _ (.cons ..), .cons _ _ .nil, ⟨_, _, _, c⟩ => c.elim
  | .nil, .cons .., h => h.elim
  | .cons .., .nil, h => h.elim

theorem hitAt_ne_nil (F : Forest (Lab α)) (i : Nat) (hi : i ≠ F.lastPos) (hF : F ≠ .nil) :
    F.hitAt i ≠ .nil := by
  cases F with
  | nil => exact absurd rfl hF
  | cons x k r =>
    simp only [Forest.hitAt]
    split
    · rename_i h0
      intro hr
      subst h0 hr
      exact hi (by cases k <;> rfl)
    · split
      · split <;> simp
      · simp

theorem CopySim.hitAt {ik : IndexKind} : ∀ {F G : Forest (Lab α)}, CopySim ik F G → ∀ i : Nat,
    CopySim ik (F.hitAt i) (G.hitAt i)
  | .nil, .nil, _ => fun _ => trivial
  | .cons x k r, .cons y k' r', ⟨a, b, c, d⟩ => fun i => by
    simp only [Forest.hitAt, ← c.size, ← c.lastPos]
    split
    · exact d
    · split
      · split
        · exact ⟨a, fun _ => rfl, c.dropLast, a, b, c, d⟩
        · rename_i h0 h1 h2
          refine ⟨a, fun h => ?_, c.hitAt _, d⟩
          refine absurd h (hitAt_ne_nil k _ h2 ?_)
          rintro rfl
          simp only [Forest.size] at h1
          omega
      · exact ⟨a, b, c, d.hitAt _⟩
  | .nil, .cons .., h => h.elim
  | .cons .., .nil, h => h.elim

theorem hitAt_beyond : ∀ (F : Forest (Lab α)) (i : Nat), F.size ≤ i → F.hitAt i = F
  | .nil, _, _ => rfl
  | .cons x k r, i, h => by
    simp only [Forest.size] at h
    simp only [Forest.hitAt]
    rw [if_neg (by omega), if_neg (by omega), hitAt_beyond r _ (by omega)]

/-! ### Places from the last to the first -/

/-- The positions in document order of the elements that satisfy `p` and are not below another one. -/
def places {β : Type} (p : β → Bool) : Forest β → List Nat
  | .nil => []
  | .cons x k r =>
    if p x then 0 :: (places p r).map (1 + k.size + ·)
    else (places p k).map (1 + ·) ++ (places p r).map (1 + k.size + ·)

theorem marked_places {p : Lab α → Bool} : ∀ (F : Forest (Lab α)) (c : Nat),
    F.ids = List.range' c F.size → (F.marked p).map (·.id) = (places p F).map (c + ·)
  | .nil, _, _ => rfl
  | .cons x k r, c, h => by
    have hs : (Forest.cons x k r).ids = x.id :: (k.ids ++ r.ids) := by
      simp [Forest.ids, preorder]
    rw [hs, Forest.size, show 1 + k.size + r.size = (k.size + r.size) + 1 by omega,
      List.range'_succ, List.cons.injEq, ← List.range'_append_1] at h
    obtain ⟨h1, h2⟩ := h
    obtain ⟨h3, h4⟩ := List.append_inj h2 (by simp [Forest.ids, preorder_length])
    have i1 := marked_places (p := p) k (c + 1) h3
    have i2 := marked_places (p := p) r (c + 1 + k.size) h4
    have e2 : (List.map (c + ·) ((places p r).map (1 + k.size + ·))) =
        (places p r).map (c + 1 + k.size + ·) := by
      rw [List.map_map]
      exact List.map_congr_left fun a _ => by simp only [Function.comp_apply]; omega
    have e1 : (List.map (c + ·) ((places p k).map (1 + ·))) = (places p k).map (c + 1 + ·) := by
      rw [List.map_map]
      exact List.map_congr_left fun a _ => by simp only [Function.comp_apply]; omega
    simp only [Forest.marked, places]
    split
    · simp only [List.map_cons, i2, e2, h1, Nat.add_zero]
    · simp only [List.map_append, i1, i2, e1, e2]

/-- Removing at these positions, one after the other, is safe: never at the last position of the level
(if `inner`), and never is there more text or are there more nodes afterwards. -/
def SafeRun (ik : IndexKind) (inner : Bool) : List Nat → Forest (Lab α) → Prop
  | [], _ => True
  | i :: l, F => (i < F.size ∧ (inner = true → i ≠ F.lastPos) ∧ (F.hitAt i).size ≤ F.size ∧
      textOf ik (F.hitAt i) ≤ textOf ik F) ∧ SafeRun ik inner l (F.hitAt i)

theorem SafeRun.append {ik : IndexKind} {inner : Bool} : ∀ {l l' : List Nat} {F : Forest (Lab α)},
    SafeRun ik inner l F → SafeRun ik inner l' (l.foldl (fun (F : Forest (Lab α)) i => F.hitAt i) F) →
    SafeRun ik inner (l ++ l') F
  | [], _, _, _, h => h
  | _ :: _, _, _, ⟨h1, h2⟩, h => ⟨h1, h2.append h⟩

theorem text_rest (ik : IndexKind) (x : Lab α) (k r r' : Forest (Lab α))
    (h : textOf ik r ≤ textOf ik r') : textOf ik (.cons x k r) ≤ textOf ik (.cons x k r') := by
  cases k with
  | nil => simp only [textOf]; omega
  | cons y k s =>
    rw [textOf_inner _ x (k := .cons y k s) _ (by simp), textOf_inner _ x (k := .cons y k s) _ (by simp)]
    omega

theorem hitAt_kids (x : Lab α) (k r : Forest (Lab α)) {i : Nat} (hi : i < k.size) (hl : i ≠ k.lastPos) :
    (Forest.cons x k r).hitAt (1 + i) = .cons x (k.hitAt i) r := by
  rw [Forest.hitAt, if_neg (by omega), if_pos (by omega), Nat.add_sub_cancel_left, if_neg hl]

theorem hitAt_rest (x : Lab α) (k r : Forest (Lab α)) (i : Nat) :
    (Forest.cons x k r).hitAt (1 + k.size + i) = .cons x k (r.hitAt i) := by
  rw [Forest.hitAt, if_neg (by omega), if_neg (by omega)]
  congr 2
  omega

theorem lastPos_lt : ∀ (F : Forest (Lab α)), F ≠ .nil → F.lastPos < F.size
  | .nil, h => absurd rfl h
  | .cons x k .nil, _ => by simp only [Forest.lastPos, Forest.size]; omega
  | .cons x k (.cons y k' r'), _ => by
    have := lastPos_lt (.cons y k' r') (by simp)
    rw [lastPos_cons, Forest.size]
    omega

theorem SafeRun.kids {ik : IndexKind} (inner : Bool) (x : Lab α) (r : Forest (Lab α)) :
    ∀ {l : List Nat} {k : Forest (Lab α)}, SafeRun ik true l k →
    SafeRun ik inner (l.map (1 + ·)) (.cons x k r) ∧
    (l.map (1 + ·)).foldl (fun (F : Forest (Lab α)) i => F.hitAt i) (Forest.cons x k r) =
      .cons x (l.foldl (fun (F : Forest (Lab α)) i => F.hitAt i) k) r
  | [], _, _ => ⟨trivial, rfl⟩
  | i :: l, k, ⟨⟨h1, h2, h3, h4⟩, h5⟩ => by
    have hl := h2 rfl
    have hk : k ≠ .nil := by rintro rfl; simp [Forest.size] at h1
    have hk' := hitAt_ne_nil k i hl hk
    obtain ⟨a, b⟩ := SafeRun.kids (ik := ik) inner x r h5
    simp only [List.map_cons, List.foldl_cons, SafeRun]
    rw [hitAt_kids x k r h1 hl]
    refine ⟨⟨⟨?_, fun _ => ?_, ?_, ?_⟩, a⟩, b⟩
    · simp only [Forest.size]; omega
    · cases r with
      | nil => simp only [Forest.lastPos]; omega
      | cons => rw [lastPos_cons]; omega
    · simp only [Forest.size]; omega
    · rw [textOf_inner _ _ _ hk, textOf_inner _ _ _ hk']; omega

theorem SafeRun.rest {ik : IndexKind} {inner : Bool} (x : Lab α) (k : Forest (Lab α)) :
    ∀ {l : List Nat} {r : Forest (Lab α)}, SafeRun ik inner l r →
    SafeRun ik inner (l.map (1 + k.size + ·)) (.cons x k r) ∧
    (l.map (1 + k.size + ·)).foldl (fun (F : Forest (Lab α)) i => F.hitAt i) (Forest.cons x k r) =
      .cons x k (l.foldl (fun (F : Forest (Lab α)) i => F.hitAt i) r)
  | [], _, _ => ⟨trivial, rfl⟩
  | i :: l, r, ⟨⟨h1, h2, h3, h4⟩, h5⟩ => by
    obtain ⟨a, b⟩ := SafeRun.rest (ik := ik) x k h5
    simp only [List.map_cons, List.foldl_cons, SafeRun]
    rw [hitAt_rest x k r i]
    refine ⟨⟨⟨?_, fun hi => ?_, ?_, text_rest _ _ _ _ _ h4⟩, a⟩, b⟩
    · simp only [Forest.size]; omega
    · cases r with
      | nil => simp [Forest.size] at h1
      | cons => have := h2 hi; rw [lastPos_cons]; omega
    · simp only [Forest.size]; omega

/-- `KeepsLast`, level by level; `root` for the outermost level. -/
def keepsB {β : Type} (p : β → Bool) (root : Bool) : Forest β → Prop
  | .nil => True
  | .cons x k r =>
    (p x = true → root = true ∨ r ≠ .nil) ∧ (p x = false → keepsB p false k) ∧ keepsB p root r

theorem keepsB_of {β : Type} {p : β → Bool} (F : Forest β) : ∀ (root : Bool),
    (∀ anc left x kids right, Loc F anc left x kids right → (∀ a ∈ anc, p a = false) → p x = true →
      (root = true ∧ anc = []) ∨ right ≠ .nil) → keepsB p root F := by
  induction F with
  | nil => intro root _; trivial
  | cons x k r ihk ihr =>
    intro root h
    refine ⟨fun hp => ?_, fun hp => ihk false ?_, ihr root ?_⟩
    · rcases h [] .nil x k r (.root rfl) (by simp) hp with ⟨h1, _⟩ | h1
      · exact .inl h1
      · exact .inr h1
    · intro anc left y kids right hl ha hp'
      rcases h _ _ _ _ _ (hl.in_kids (x := x) (r := r)) (by
        intro a h
        rcases List.mem_append.1 h with h | h
        · exact ha a h
        · rw [List.mem_singleton.1 h]; exact hp) hp' with ⟨_, h2⟩ | h1
      · simp at h2
      · exact .inr h1
    · intro anc left y kids right hl ha hp
      obtain ⟨left', hl', _⟩ := hl.in_rest (x := x) (k := k)
      exact h _ _ _ _ _ hl' ha hp

theorem keepsB_inner {β : Type} {p : β → Bool} : ∀ (F : Forest β), keepsB p false F →
    ∀ anc left x kids right, Loc F anc left x kids right → (∀ a ∈ anc, p a = false) → p x = true →
      right ≠ .nil
  | .nil, _, anc, left, x, kids, right, hl, _, _ => by
    have := hl.mem; simp [preorder] at this
  | .cons z k r, ⟨h1, h2, h3⟩, anc, left, y, kids, right, hl, ha, hp => by
    rcases hl.cases_cons with ⟨rfl, rfl, rfl, rfl, rfl⟩ | ⟨l1, h4, h5, h6⟩ | ⟨a1, rfl, h4⟩
    · rcases h1 hp with h | h
      · simp at h
      · exact h
    · exact keepsB_inner r h3 _ _ _ _ _ h4 ha hp
    · have hz : p z = false := ha z (by simp)
      exact keepsB_inner k (h2 hz) _ _ _ _ _ h4 (fun a h => ha a (by simp [h])) hp

theorem keepsB_loc {β : Type} {p : β → Bool} : ∀ (F : Forest β) (root : Bool), keepsB p root F →
    ∀ anc left x kids right, Loc F anc left x kids right → (∀ a ∈ anc, p a = false) → p x = true →
      anc = [] ∨ right ≠ .nil
  | .nil, _, _, anc, left, x, kids, right, hl, _, _ => by
    have := hl.mem; simp [preorder] at this
  | .cons z k r, root, ⟨h1, h2, h3⟩, anc, left, y, kids, right, hl, ha, hp => by
    rcases hl.cases_cons with ⟨rfl, rfl, rfl, rfl, rfl⟩ | ⟨l1, h4, h5, h6⟩ | ⟨a1, rfl, h4⟩
    · exact .inl rfl
    · exact keepsB_loc r root h3 _ _ _ _ _ h4 ha hp
    · have hz : p z = false := ha z (by simp)
      refine .inr ?_
      exact keepsB_inner k (h2 hz) _ _ _ _ _ h4 (fun a h => ha a (by simp [h])) hp

theorem keepsLast_of {β : Type} {p : β → Bool} {F : Forest β} (h : keepsB p true F) :
    F.KeepsLast p := keepsB_loc F true h

theorem keeps_ne_nil {β : Type} {p : β → Bool} : ∀ {F : Forest β}, keepsB p false F → F ≠ .nil →
    F.prune p ≠ .nil
  | .nil, _, h => absurd rfl h
  | .cons x k r, ⟨h1, _, h3⟩, _ => by
    simp only [Forest.prune]
    split
    · rename_i hp
      rcases h1 hp with h | h
      · simp at h
      · exact keeps_ne_nil h3 h
    · simp

theorem places_run (ik : IndexKind) {p : Lab α → Bool} : ∀ (F : Forest (Lab α)) (root : Bool),
    keepsB p root F → SafeRun ik (!root) (places p F).reverse F ∧
      (places p F).reverse.foldl (fun (F : Forest (Lab α)) i => F.hitAt i) F = F.prune p
  | .nil, _, _ => ⟨trivial, rfl⟩
  | .cons x k r, root, h => by
    obtain ⟨h0, h1, h2⟩ := h
    obtain ⟨r1, r2⟩ := places_run ik r root h2
    obtain ⟨s1, s2⟩ := SafeRun.rest x k r1
    rw [r2] at s2
    simp only [places, Forest.prune]
    by_cases hp : p x = true
    · rw [if_pos hp, if_pos hp, List.reverse_cons, ← List.map_reverse]
      refine ⟨s1.append ?_, ?_⟩
      · rw [s2]
        refine ⟨⟨?_, fun hi => ?_, ?_, ?_⟩, trivial⟩
        · simp only [Forest.size]; omega
        · have : root = false := by simpa using hi
          subst this
          have hr : r ≠ .nil := by
            rcases h0 hp with h | h
            · simp at h
            · exact h
          have := keeps_ne_nil h2 hr
          cases hq : r.prune p with
          | nil => exact absurd hq this
          | cons => rw [lastPos_cons]; omega
        · simp only [Forest.hitAt, if_true, Forest.size]; omega
        · simp only [Forest.hitAt, if_true]
          cases k with
          | nil => simp only [textOf]; omega
          | cons y k s => rw [textOf_inner _ x (k := .cons y k s) _ (by simp)]; omega
      · rw [List.foldl_append, s2]
        simp [Forest.hitAt]
    · rw [if_neg hp, if_neg hp, List.reverse_append, ← List.map_reverse, ← List.map_reverse]
      obtain ⟨k1, k2⟩ := places_run ik k false (h1 (by simpa using hp))
      obtain ⟨q1, q2⟩ := SafeRun.kids (!root) x (r.prune p) k1
      refine ⟨s1.append ?_, ?_⟩
      · rw [s2]; exact q1
      · rw [List.foldl_append, s2, q2, k2]

theorem SafeRun.stage {ik : IndexKind} {inner : Bool} : ∀ {l is : List Nat} {F : Forest (Lab α)},
    SafeRun ik inner is F → l <+: is →
    (l.foldl (fun (F : Forest (Lab α)) i => F.hitAt i) F).size ≤ F.size ∧
      textOf ik (l.foldl (fun (F : Forest (Lab α)) i => F.hitAt i) F) ≤ textOf ik F
  | [], _, _, _, _ => ⟨Nat.le_refl _, Nat.le_refl _⟩
  | _ :: l, [], _, _, h => by simp at h
  | a :: l, b :: is, F, ⟨⟨_, _, h3, h4⟩, h5⟩, h => by
    obtain ⟨r, hr⟩ := h
    simp only [List.cons_append, List.cons.injEq] at hr
    obtain ⟨rfl, hr⟩ := hr
    obtain ⟨a1, a2⟩ := h5.stage ⟨r, hr⟩
    exact ⟨Nat.le_trans a1 h3, Nat.le_trans a2 h4⟩

end Syntree
