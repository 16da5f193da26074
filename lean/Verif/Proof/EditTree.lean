import Verif.Proof.EditCopy
import Verif.Proof.Bridge

/-! The results of `modify` in terms of nested lists. -/

namespace Syntree

variable {α : Type} {fl : Flavor}

open Forest

theorem room_iff (G : Forest (Lab α)) : Room fl (Nest.init : Nest α) G ↔ G.literal.Fits fl := by
  unfold Room Lit.Fits
  rw [count_literal, textOf_eq]
  simp [Nest.init]

theorem Represents.weaken {g : Bool} {t : Tree α} {F : Forest (Lab α)} (h : Represents g t F) :
    Represents false t F := TRep.weaken h

/-- From a run of the machine to a copy. -/
theorem copy_of_machine {t : Tree α} {F G : Forest (Lab α)} (h : Represents false t F)
    {c : ChangeSet}
    (hm : (Room fl (Nest.init : Nest α) G → c.machine fl F = .ok (Nest.init.copied fl.ik G)) ∧
      (¬ Room fl (Nest.init : Nest α) G → c.machine fl F = .error .overflow)) :
    IsCopy fl (c.modify fl t) G ∧ (∀ t', c.modify fl t = .ok t' →
      Represents true t' (G.relaid fl.ik).shorten) := by
  obtain ⟨s1, s2⟩ := modify_spec h c
  rw [room_iff] at hm
  have key : G.literal.Fits fl → ∃ t', c.modify fl t = .ok t' ∧
      Represents true t' (G.relaid fl.ik).shorten ∧ t'.span = ⟨0, G.literal.len fl.ik⟩ ∧
      t'.len = G.size := by
    intro hf
    obtain ⟨t', h1, h2, h3, h4⟩ := s2 _ (hm.1 hf)
    refine ⟨t', h1, ?_, ?_, ?_⟩
    · have e : (Nest.init.copied fl.ik G).cur = (G.relaid fl.ik).shorten := by
        show Forest.nil ++ _ = _
        rw [nil_append, Forest.relaid, laid_eq]; rfl
      rw [← e]; exact h2
    · rw [h3, textOf_eq]
      show (⟨0, 0 + _⟩ : Span) = _
      rw [Nat.zero_add]
    · rw [h4]
      show 0 + G.size = _
      omega
  refine ⟨⟨fun hf => ?_, fun hf => s1 _ (hm.2 hf)⟩, fun t' ht => ?_⟩
  · obtain ⟨t', h1, h2, h3, h4⟩ := key hf
    exact ⟨t', h1, h2.listing, h3, h4⟩
  · by_cases hf : G.literal.Fits fl
    · obtain ⟨t'', h1, h2, _⟩ := key hf
      rw [ht] at h1
      simp only [Except.ok.injEq] at h1
      rw [h1]; exact h2
    · rw [s1 _ (hm.2 hf)] at ht
      simp at ht

/-! ### Places -/

theorem Forest.Loc.in_rest {β : Type} {x : β} {k r : Forest β} {anc : List β} {left kids right : Forest β}
    {y : β} (h : Forest.Loc r anc left y kids right) :
    ∃ left', Forest.Loc (.cons x k r) anc left' y kids right ∧ (anc ≠ [] → left' = left) ∧
      (anc = [] → left' = .cons x k left) := by
  induction h with
  | @root left x' kids right e =>
    exact ⟨.cons x k left, .root (by rw [e]; rfl), fun h => absurd rfl h, fun _ => rfl⟩
  | @child anc l p k' r' left x' kids right hp e ih =>
    obtain ⟨l', h1, _⟩ := ih
    exact ⟨left, .child h1 e, fun _ => rfl, fun h => by simp at h⟩

theorem Forest.Loc.in_kids {β : Type} {x : β} {k r : Forest β} {anc : List β} {left kids right : Forest β}
    {y : β} (h : Forest.Loc k anc left y kids right) :
    Forest.Loc (.cons x k r) (anc ++ [x]) left y kids right := by
  induction h with
  | root e => exact .child (.root (left := .nil) rfl) e
  | child _ e ih => exact .child ih e

/-- Where an element of a nested list is. -/
theorem Forest.Loc.cases_cons {β : Type} {x : β} {k r : Forest β} {anc : List β}
    {left kids right : Forest β} {y : β} (h : Forest.Loc (.cons x k r) anc left y kids right) :
    (anc = [] ∧ left = .nil ∧ y = x ∧ kids = k ∧ right = r) ∨
    (∃ left', Forest.Loc r anc left' y kids right ∧ (anc ≠ [] → left = left') ∧
      (anc = [] → left = .cons x k left')) ∨
    (∃ anc', anc = anc' ++ [x] ∧ Forest.Loc k anc' left y kids right) := by
  induction h with
  | @root left y kids right e =>
    cases left with
    | nil =>
      simp only [nil_append, cons.injEq] at e
      exact Or.inl ⟨rfl, rfl, e.1.symm, e.2.1.symm, e.2.2.symm⟩
    | cons z K l =>
      simp only [cons_append, cons.injEq] at e
      obtain ⟨rfl, rfl, e⟩ := e
      exact Or.inr (Or.inl ⟨l, .root e, fun h => absurd rfl h, fun _ => rfl⟩)
  | @child anc l p k' r' left y kids right _ e ih =>
    rcases ih with ⟨rfl, _, rfl, rfl, _⟩ | ⟨l', h1, h2, _⟩ | ⟨anc', rfl, h⟩
    · exact Or.inr (Or.inr ⟨[], rfl, .root e⟩)
    · exact Or.inr (Or.inl ⟨left, .child h1 e, fun _ => rfl, fun h => by simp at h⟩)
    · exact Or.inr (Or.inr ⟨p :: anc', rfl, .child h e⟩)

theorem Forest.Loc.mem_ids {F : Forest (Lab α)} {anc : List (Lab α)} {left kids right : Forest (Lab α)}
    {x : Lab α} (h : Forest.Loc F anc left x kids right) : x.id ∈ F.ids :=
  List.mem_map_of_mem h.mem

theorem last_of_append {left : Forest (Lab α)} {x : Lab α} {kids : Forest (Lab α)} :
    (left ++ single x kids).dropLast = left ∧ (left ++ single x kids).lastPos = left.size := by
  induction left with
  | nil => exact ⟨rfl, rfl⟩
  | cons y k r _ ih =>
    cases hr : r ++ single x kids with
    | nil => have := congrArg Forest.tops hr; simp at this
    | cons z K R =>
      rw [hr] at ih
      rw [cons_append, hr, dropLast_cons, lastPos_cons, ih.1, ih.2]
      exact ⟨rfl, rfl⟩

theorem ids_parts {x : Lab α} {k r : Forest (Lab α)} {c : Nat}
    (h : (Forest.cons x k r).ids = List.range' c (Forest.cons x k r).size) :
    x.id = c ∧ k.ids = List.range' (c + 1) k.size ∧ r.ids = List.range' (c + 1 + k.size) r.size := by
  simp only [ids_cons, Forest.size] at h
  rw [show 1 + k.size + r.size = (k.size + r.size) + 1 by omega, List.range'_succ] at h
  simp only [List.cons.injEq] at h
  obtain ⟨h1, h2⟩ := h
  rw [← List.range'_append_1] at h2
  have hl : k.ids.length = (List.range' (c + 1) k.size).length := by
    simp [Forest.ids, preorder_length]
  obtain ⟨h3, h4⟩ := List.append_inj h2 hl
  exact ⟨h1, h3, h4⟩

theorem prune_of_not_mem {i : Nat} (F : Forest (Lab α)) (h : i ∉ F.ids) :
    F.prune (fun y => decide (y.id = i)) = F := by
  induction F with
  | nil => rfl
  | cons x k r ihk ihr =>
    simp only [ids_cons, List.mem_cons, List.mem_append, not_or] at h
    rw [Forest.prune, if_neg (by simp; exact fun h' => h.1 h'.symm), ihk h.2.1, ihr h.2.2]

/-- With ids in document order, a hit that is not the last child of a node is a removal. -/
theorem hitAt_eq_prune (F : Forest (Lab α)) : ∀ (c i : Nat), F.ids = List.range' c F.size → i < F.size →
    (∀ anc left x kids, Forest.Loc F anc left x kids .nil → x.id = c + i → anc = []) →
    F.hitAt i = F.prune (fun y => decide (y.id = c + i)) := by
  induction F with
  | nil => intro c i _ hi; simp [Forest.size] at hi
  | cons x k r ihk ihr =>
    intro c i hids hi hl
    obtain ⟨h1, h2, h3⟩ := ids_parts hids
    simp only [Forest.hitAt, Forest.prune]
    by_cases h0 : i = 0
    · rw [if_pos h0, if_pos (by simp; omega), prune_of_not_mem]
      rw [h3]
      simp only [List.mem_range'_1]; omega
    · rw [if_neg h0, if_neg (c := decide (x.id = c + i) = true) (by simp; omega)]
      by_cases hk : i ≤ k.size
      · rw [if_pos hk]
        rw [prune_of_not_mem r (by rw [h3]; simp only [List.mem_range'_1]; omega)]
        have hne : i - 1 ≠ k.lastPos := by
          intro he
          have hk0 : k ≠ .nil := by rintro rfl; simp only [Forest.size] at hk; omega
          obtain ⟨z, K, e1, e2⟩ := reach_last k hk0
          have hz : z.id = c + i := by
            have : k.ids = k.dropLast.ids ++ (z.id :: K.ids) := by
              conv => lhs; rw [e1]
              simp
            rw [h2] at this
            have hlen : k.dropLast.ids.length = i - 1 := by
              rw [Forest.ids, List.length_map, preorder_length, ← e2, he]
            have hg := congrArg (fun l => l[i - 1]?) this
            rw [List.getElem?_append_right (by omega), hlen, Nat.sub_self,
              List.getElem?_range' (by omega)] at hg
            simp only [List.getElem?_cons_zero, Option.some.injEq] at hg
            omega
          have := hl [x] k.dropLast z K (.child (.root (left := .nil) rfl) e1) hz
          simp at this
        rw [if_neg hne, ihk (c + 1) (i - 1) h2 (by omega)]
        · rw [show c + 1 + (i - 1) = c + i by omega]
        · intro anc left y kids hy he
          have := hl _ _ _ _ (hy.in_kids (x := x) (r := r)) (by omega)
          simp at this
      · rw [if_neg hk]
        rw [prune_of_not_mem k (by rw [h2]; simp only [List.mem_range'_1]; omega)]
        rw [ihr (c + 1 + k.size) (i - 1 - k.size) h3 (by simp only [Forest.size] at hi; omega)]
        · rw [show c + 1 + k.size + (i - 1 - k.size) = c + i by omega]
        · intro anc left y kids hy he
          obtain ⟨left', h4, _⟩ := hy.in_rest (x := x) (k := k)
          exact hl _ _ _ _ h4 (by omega)

theorem not_top {F : Forest (Lab α)} : ∀ {q : Lab α} {anc : List (Lab α)} {left : Forest (Lab α)}
    {x : Lab α} {kids right : Forest (Lab α)}, Forest.Loc F (q :: anc) left x kids right →
    F.ids.Nodup → x.id ∉ F.topIds := by
  induction F with
  | nil => intro q anc left x kids right hl; have := hl.mem_ids; simp at this
  | cons z k r ihk ihr =>
    intro q anc left x kids right hl hn
    simp only [ids_cons, List.nodup_cons, List.mem_append, not_or, List.nodup_append] at hn
    rw [topIds_cons, List.mem_cons, not_or]
    rcases hl.cases_cons with ⟨h, _⟩ | ⟨left', h4, h5, _⟩ | ⟨anc', e, h4⟩
    · simp at h
    · exact ⟨fun h => hn.1.2 (h ▸ h4.mem_ids), ihr h4 hn.2.2.1⟩
    · exact ⟨fun h => hn.1.1 (h ▸ h4.mem_ids),
        fun h => hn.2.2.2 _ h4.mem_ids _ (mem_ids_of_mem_topIds h) rfl⟩

/-- A node has one place only. -/
theorem Forest.Loc.unique {F : Forest (Lab α)} (hn : F.ids.Nodup) :
    ∀ {anc : List (Lab α)} {left : Forest (Lab α)} {x : Lab α} {kids right : Forest (Lab α)}
      {anc' : List (Lab α)} {left' : Forest (Lab α)} {x' : Lab α} {kids' right' : Forest (Lab α)},
      Forest.Loc F anc left x kids right → Forest.Loc F anc' left' x' kids' right' → x.id = x'.id →
      anc = anc' ∧ left = left' ∧ x = x' ∧ kids = kids' ∧ right = right' := by
  induction F with
  | nil => intro anc left x kids right _ _ _ _ _ hl; have := hl.mem_ids; simp at this
  | cons z k r ihk ihr =>
    intro anc left x kids right anc' left' x' kids' right' hl hl' e
    simp only [ids_cons, List.nodup_cons, List.mem_append, not_or, List.nodup_append] at hn
    have hm := hl.mem_ids
    rcases hl.cases_cons with ⟨rfl, rfl, rfl, rfl, rfl⟩ | ⟨l1, h4, h5, h6⟩ | ⟨a1, rfl, h4⟩
    · rcases hl'.cases_cons with ⟨rfl, rfl, rfl, rfl, rfl⟩ | ⟨l1, h4, h5, h6⟩ | ⟨a1, rfl, h4⟩
      · exact ⟨rfl, rfl, rfl, rfl, rfl⟩
      · exact absurd (e ▸ h4.mem_ids) hn.1.2
      · exact absurd (e ▸ h4.mem_ids) hn.1.1
    · rcases hl'.cases_cons with ⟨rfl, rfl, rfl, rfl, rfl⟩ | ⟨l2, g4, g5, g6⟩ | ⟨a2, rfl, g4⟩
      · exact absurd (e ▸ h4.mem_ids) hn.1.2
      · obtain ⟨rfl, rfl, rfl, rfl, rfl⟩ := ihr hn.2.2.1 h4 g4 e
        refine ⟨rfl, ?_, rfl, rfl, rfl⟩
        by_cases ha : anc = []
        · rw [h6 ha, g6 ha]
        · rw [h5 ha, g5 ha]
      · exact absurd e (hn.2.2.2 _ g4.mem_ids _ h4.mem_ids).symm
    · rcases hl'.cases_cons with ⟨rfl, rfl, rfl, rfl, rfl⟩ | ⟨l2, g4, g5, g6⟩ | ⟨a2, rfl, g4⟩
      · exact absurd (e ▸ h4.mem_ids) hn.1.1
      · exact absurd e (hn.2.2.2 _ h4.mem_ids _ g4.mem_ids)
      · obtain ⟨rfl, rfl, rfl, rfl, rfl⟩ := ihk hn.2.1 h4 g4 e
        exact ⟨rfl, rfl, rfl, rfl, rfl⟩

/-- With ids in document order, a hit of the last child of a node makes the tree larger. -/
theorem hitAt_last_size (F : Forest (Lab α)) : ∀ (c : Nat) {p : Lab α} {anc : List (Lab α)}
    {left : Forest (Lab α)} {x : Lab α} {kids : Forest (Lab α)}, F.ids = List.range' c F.size →
    Forest.Loc F (p :: anc) left x kids .nil →
    (F.hitAt (x.id - c)).size = F.size + 1 + left.size := by
  induction F with
  | nil => intro c p anc left x kids _ hl; have := hl.mem_ids; simp at this
  | cons z k r ihk ihr =>
    intro c p anc left x kids hids hl
    obtain ⟨h1, h2, h3⟩ := ids_parts hids
    simp only [Forest.hitAt]
    rcases hl.cases_cons with ⟨h, _⟩ | ⟨left', h4, h5, _⟩ | ⟨anc', e, h4⟩
    · simp at h
    · have hm := h4.mem_ids
      rw [h3, List.mem_range'_1] at hm
      rw [if_neg (by omega), if_neg (by omega)]
      have := ihr (c + 1 + k.size) h3 h4
      rw [h5 (by simp), Forest.size, show x.id - c - 1 - k.size = x.id - (c + 1 + k.size) by omega, this]
      simp only [Forest.size]; omega
    · have hm := h4.mem_ids
      rw [h2, List.mem_range'_1] at hm
      rw [if_neg (by omega), if_pos (by omega)]
      cases anc' with
      | nil =>
        cases h4 with
        | root e' =>
          obtain ⟨d1, d2⟩ := last_of_append (left := left) (x := x) (kids := kids)
          have hx : x.id = c + 1 + left.size := by
            have hg := h2
            rw [e'] at hg
            simp only [ids_append, ids_cons] at hg
            have hg := congrArg (fun l => l[left.size]?) hg
            have hlen : left.ids.length = left.size := by
              rw [Forest.ids, List.length_map, preorder_length]
            rw [List.getElem?_append_right (by omega), hlen, Nat.sub_self,
              List.getElem?_range' (by rw [size_append]; simp only [Forest.size]; omega)] at hg
            simp only [List.getElem?_cons_zero, Option.some.injEq] at hg
            omega
          rw [if_pos (by rw [e', d2]; omega), e', d1]
          simp only [Forest.size]; omega
      | cons q anc'' =>
        have hne : x.id - c - 1 ≠ k.lastPos := by
          intro he
          have hk0 : k ≠ .nil := by rintro rfl; simp only [Forest.size] at hm; omega
          obtain ⟨y, K, e1, e2⟩ := reach_last k hk0
          have hy : y.id = x.id := by
            have hg := h2
            have e3 : k.ids = k.dropLast.ids ++ (y.id :: K.ids) := by
              conv => lhs; rw [e1]
              simp
            rw [e3] at hg
            have hg := congrArg (fun l => l[k.dropLast.size]?) hg
            have hlen : k.dropLast.ids.length = k.dropLast.size := by
              rw [Forest.ids, List.length_map, preorder_length]
            rw [List.getElem?_append_right (by omega), hlen, Nat.sub_self,
              List.getElem?_range' (by omega)] at hg
            simp only [List.getElem?_cons_zero, Option.some.injEq] at hg
            omega
          refine not_top h4 (by rw [h2]; exact List.nodup_range') ?_
          rw [e1, topIds_append, topIds_cons, hy]
          simp
        rw [if_neg hne]
        have := ihk (c + 1) h2 h4
        rw [Forest.size, show x.id - c - 1 = x.id - (c + 1) by omega, this]
        simp only [Forest.size]; omega

/-! ### When the ends of spans are right -/

/-- Does the run of siblings end with a childless element? -/
def EndsLeaf : Forest (Lab α) → Prop
  | .nil => True
  | .cons _ k .nil => k = .nil
  | .cons _ _ r => EndsLeaf r

def TLast : Forest (Lab α) → Prop
  | .nil => True
  | .cons _ k r => EndsLeaf k ∧ TLast k ∧ TLast r

theorem endsLeaf_of {F : Forest (Lab α)} (h : ∀ left x k, F = left ++ single x k → k = .nil) :
    EndsLeaf F := by
  induction F with
  | nil => trivial
  | cons x k r _ ihr =>
    cases r with
    | nil => exact h .nil x k rfl
    | cons y k' r' =>
      have : EndsLeaf (.cons y k' r') :=
        ihr (fun left z K e => h (.cons x k left) z K (by rw [e]; rfl))
      rw [EndsLeaf]
      · exact this
      · simp

theorem tlast_of {F : Forest (Lab α)} (h : F.TokenLast) : TLast F := by
  induction F with
  | nil => trivial
  | cons x k r ihk ihr =>
    refine ⟨endsLeaf_of fun left y K e => ?_, ihk fun anc left y K hl _ => ?_, ihr fun anc left y K hl ha => ?_⟩
    · exact h [x] left y K (.child (.root (left := .nil) rfl) e) (by simp)
    · exact h _ _ _ _ (hl.in_kids (x := x) (r := r)) (by simp)
    · obtain ⟨left', h4, _⟩ := hl.in_rest (x := x) (k := k)
      exact h _ _ _ _ h4 ha

theorem lastStop_laid (ik : IndexKind) : ∀ (F : Forest (Lab α)) (pos i s : Nat), EndsLeaf F → F ≠ .nil →
    (laid ik pos i F).lastStop s = pos + textOf ik F
  | .nil, _, _, _, _, h => absurd rfl h
  | .cons x k .nil, pos, i, s, h, _ => by
    have hk : k = .nil := h
    subst hk
    simp [laid, Forest.lastStop, textOf]
  | .cons x k (.cons y k' r'), pos, i, s, h, _ => by
    have h' : EndsLeaf (.cons y k' r') := by
      rw [EndsLeaf] at h
      · exact h
      · simp
    by_cases hk : k = .nil
    · subst hk
      rw [laid, lastStop_cons, lastStop_laid ik _ _ _ _ h' (by simp), textOf]
      omega
    · rw [laid_inner _ _ _ _ _ hk, lastStop_cons, lastStop_laid ik _ _ _ _ h' (by simp),
        textOf_inner _ _ _ hk]
      omega

theorem shorten_laid (ik : IndexKind) : ∀ (F : Forest (Lab α)) (pos i : Nat), TLast F →
    (laid ik pos i F).shorten = laid ik pos i F
  | .nil, _, _, _ => rfl
  | .cons x .nil r, pos, i, h => by
    simp only [laid, Forest.shorten, Forest.lastStop, shorten_laid ik r _ _ h.2.2]
  | .cons x (.cons y k' r') r, pos, i, h => by
    rw [laid_inner _ _ _ x (k := .cons y k' r') r (by simp)]
    simp only [Forest.shorten]
    rw [lastStop_laid ik _ _ _ _ h.1 (by simp), shorten_laid ik _ _ _ h.2.1,
      shorten_laid ik r _ _ h.2.2]

theorem relaid_shorten {F : Forest (Lab α)} (h : F.TokenLast) (ik : IndexKind) :
    (F.relaid ik).shorten = F.relaid ik := by
  rw [Forest.relaid, laid_eq, shorten_laid ik F 0 0 (tlast_of h)]

end Syntree
