import Verif.Proof.OwnRead
import Verif.Proof.EditMany
import Verif.Proof.More

/-! `modify` of a tree that satisfies `Own`, and trees in which ids are in document order. -/

namespace Syntree

variable {α : Type} {fl : Flavor}

open Forest

/-! ## `modify` -/

theorem modify_half {t : Tree α} {F : Forest (Lab α)} (hseg : InSeg t.nodes F)
    (hfirst : t.firstNode = F.headId) (hsz : F.size ≤ t.nodes.length) (c : ChangeSet) :
    (∀ e, c.machine fl F = .error e → c.modify fl t = .error e) ∧
    (∀ n, c.machine fl F = .ok n → ∃ t', c.modify fl t = .ok t' ∧ Represents true t' n.cur ∧
      t'.span = ⟨0, n.cursor⟩ ∧ t'.len = n.count) := by
  have hm : EM.run fl c.changes ((c.changes.length + 1) * (t.nodes.length + 1) + 1)
      (EM.goto F [] Nest.init) = c.machine fl F := by
    have h2 : c.machine fl F ≠ .error .diverge := by
      intro he
      have := machine_total c F he
      simp at this
    unfold ChangeSet.machine at h2 ⊢
    have hle : (c.changes.length + 1) * (F.size + 1) ≤ (c.changes.length + 1) * (t.nodes.length + 1) :=
      Nat.mul_le_mul_left _ (by omega)
    obtain ⟨k, hk⟩ := Nat.exists_eq_add_of_le hle
    rw [show (c.changes.length + 1) * (t.nodes.length + 1) + 1 =
      (c.changes.length + 1) * (F.size + 1) + 1 + k by omega]
    exact run_more _ _ _ h2
  have := modify_loop (fl := fl) hseg hfirst c
  rw [hm] at this
  exact this

section

variable {nodes : List (Links α)} {own : Nat → Option Nat} {rank : Nat → Nat}

/-- The nested list that hangs from `d`: `d`, what is below it, and its siblings after it. -/
theorem Own.half (h : Own nodes own rank) {dep : Nat → Nat} (hd : Dep own dep) :
    ∀ (k n d : Nat), nodes.length - dep d ≤ k → nodes.length - d ≤ n → d < nodes.length →
    ∃ F : Forest (Lab α), F.headId = some d ∧ InSeg nodes F ∧ F.ids.Nodup ∧
      ∀ x ∈ F.ids, x < nodes.length ∧ ∃ y, d ≤ y ∧ own y = own d ∧ AncS own y x := by
  intro k
  induction k with
  | zero =>
    intro n d hk _ hl
    have := h.dep_lt hd hl; omega
  | succ k ihk =>
    intro n
    induction n with
    | zero => intro d _ hn hl; omega
    | succ n ihn =>
      intro d hk hn hl
      obtain ⟨l, hget⟩ := get_of_lt hl
      have hr : ∃ R : Forest (Lab α), R.headId = l.next ∧ InSeg nodes R ∧ R.ids.Nodup ∧
          ∀ x ∈ R.ids, x < nodes.length ∧ ∃ y, d < y ∧ own y = own d ∧ AncS own y x := by
        cases hx : l.next with
        | none => exact ⟨.nil, rfl, trivial, by simp [ids, preorder], by simp [ids, preorder]⟩
        | some m =>
          obtain ⟨h1, h2, lm, h3, _⟩ := h.next d l m hget hx
          obtain ⟨R, r1, r2, r3, r4⟩ := ihn m (by rw [hd.sibs h2]; exact hk) (by omega) (get_lt h3)
          refine ⟨R, r1, r2, r3, ?_⟩
          intro x hx
          obtain ⟨g1, y, g2, g3, g4⟩ := r4 x hx
          exact ⟨g1, y, by omega, g3.trans h2, g4⟩
      have hk' : ∃ K : Forest (Lab α), K.headId = l.first ∧ InSeg nodes K ∧ K.ids.Nodup ∧
          ∀ x ∈ K.ids, x < nodes.length ∧ Anc own d x := by
        cases hf : l.first with
        | none => exact ⟨.nil, rfl, trivial, by simp [ids, preorder], by simp [ids, preorder]⟩
        | some f =>
          obtain ⟨h1, lf, h2, _, _⟩ := h.first d l f hget hf
          have hdf := hd.below f d h1
          have hdl := h.dep_lt hd hl
          obtain ⟨K, r1, r2, r3, r4⟩ := ihk (nodes.length - f) f (by omega) (Nat.le_refl _) (get_lt h2)
          refine ⟨K, r1, r2, r3, ?_⟩
          intro x hx
          obtain ⟨g1, y, g2, g3, g4⟩ := r4 x hx
          exact ⟨g1, (Anc.base (g3.trans h1)).transS g4⟩
      obtain ⟨R, r1, r2, r3, r4⟩ := hr
      obtain ⟨K, k1, k2, k3, k4⟩ := hk'
      refine ⟨.cons ⟨d, l.data, l.span⟩ K R, rfl, ⟨⟨l, hget, rfl, rfl, k1.symm, r1.symm⟩, k2, r2⟩, ?_, ?_⟩
      · have e : (Forest.cons ⟨d, l.data, l.span⟩ K R : Forest (Lab α)).ids = d :: (K.ids ++ R.ids) := by
          simp [ids, preorder]
        rw [e]
        refine List.nodup_cons.2 ⟨?_, List.nodup_append.2 ⟨k3, r3, ?_⟩⟩
        · intro hm
          rcases List.mem_append.1 hm with hm | hm
          · exact h.irrefl (k4 d hm).2
          · obtain ⟨_, y, g2, g3, g4⟩ := r4 d hm
            have := hd.uniq _ rfl g4 (.inl rfl) (hd.sibs g3)
            omega
        · intro a ha b hb hab
          subst hab
          obtain ⟨_, y, g2, g3, g4⟩ := r4 a hb
          have := hd.uniq _ rfl g4 (.inr (k4 a ha).2) (hd.sibs g3)
          omega
      · intro x hx
        have e : (Forest.cons ⟨d, l.data, l.span⟩ K R : Forest (Lab α)).ids = d :: (K.ids ++ R.ids) := by
          simp [ids, preorder]
        rw [e] at hx
        rcases List.mem_cons.1 hx with rfl | hx
        · exact ⟨hl, x, Nat.le_refl _, rfl, .inl rfl⟩
        · rcases List.mem_append.1 hx with hx | hx
          · exact ⟨(k4 x hx).1, d, Nat.le_refl _, rfl, .inr (k4 x hx).2⟩
          · obtain ⟨g1, y, g2, g3, g4⟩ := r4 x hx
            exact ⟨g1, y, by omega, g3, g4⟩

end

/-- The tree satisfies `Own` for some owners. -/
def Sane (t : Tree α) : Prop :=
  ∃ own rank, Own t.nodes own rank ∧ RootOk t.nodes own t.first

theorem Sane.half {t : Tree α} (h : Sane t) : ∃ F : Forest (Lab α), InSeg t.nodes F ∧
    t.firstNode = F.headId ∧ F.ids.Nodup ∧ (∀ x ∈ F.ids, x < t.nodes.length) ∧
    F.size ≤ t.nodes.length := by
  obtain ⟨own, rank, ho, hf⟩ := h
  obtain ⟨dep, hd⟩ := ho.dep
  cases hx : t.first with
  | none =>
    exact ⟨.nil, trivial, by simp [Tree.firstNode, hx], by simp [ids, preorder],
      by simp [ids, preorder], Nat.zero_le _⟩
  | some f =>
    have hl := hf.lt hx
    obtain ⟨F, h1, h2, h3, h4⟩ := ho.half hd _ _ f (Nat.le_refl _) (Nat.le_refl _) hl
    have hlt := fun x hx => (h4 x hx).1
    refine ⟨F, h2, ?_, h3, hlt, ?_⟩
    · rw [h1]
      obtain ⟨l, hget⟩ := get_of_lt hl
      simp [Tree.firstNode, hx, Tree.get, nodeAt, hget]
    · have := length_le_of_lt _ _ h3 hlt
      rw [← preorder_length]
      simpa [ids] using this

/-! ## Ids in document order -/

theorem Forest.Loc.sibs_sublist {β : Type} {F : Forest β} {anc : List β} {left kids right : Forest β}
    {x : β} (hl : Loc F anc left x kids right) :
    (left ++ .cons x kids right).preorder.Sublist F.preorder := by
  cases hl with
  | root e => rw [← e]; exact List.Sublist.refl _
  | child hp e =>
    obtain ⟨pre, post, e'⟩ := hp.split
    rw [e', ← e, List.append_assoc]
    exact ((List.sublist_append_left _ _).cons _).trans (List.sublist_append_right _ _)

theorem Forest.Loc.next {β : Type} {F : Forest β} {anc : List β} {left kids k r : Forest β}
    {x y : β} (hl : Loc F anc left x kids (.cons y k r)) : Loc F anc (left ++ single x kids) y k r := by
  have e : left ++ .cons x kids (.cons y k r) = (left ++ single x kids) ++ .cons y k r := by
    rw [append_assoc]; rfl
  cases hl with
  | root e' => exact .root (e'.trans e)
  | child hp e' => exact .child hp (e'.trans e)

theorem Represents.sane {g : Bool} {t : Tree α} {F : Forest (Lab α)} (h : Represents g t F)
    (hn : F.Numbered) : Sane t := by
  have hpw : F.ids.Pairwise (· < ·) := by rw [hn]; exact List.pairwise_lt_range
  have hlt2 : ∀ a b : Lab α, [a, b].Sublist F.preorder → a.id < b.id := by
    intro a b hs
    have := (hs.map (·.id))
    have := hpw.sublist this
    simpa using this
  have hid : ∀ (i : Nat) (l : Links α), t.nodes[i]? = some l →
      ∃ anc left x kids right la, x.id = i ∧ Loc F anc left x kids right ∧
        LastRel g (some x.id) la kids ∧
        l = mkLinks x (anc.head?.map (·.id)) left.lastId right.headId kids.headId la := by
    intro i l hi
    have hm : i ∈ F.ids := by
      have := h.perm.mem_iff (a := i)
      rw [this]; simpa using get_lt hi
    obtain ⟨anc, left, x, kids, right, rfl, hl⟩ := Loc.of_id hm
    obtain ⟨la, h1, h2⟩ := hl.links h.root
    rw [hi] at h2
    simp only [Option.some.injEq] at h2
    exact ⟨anc, left, x, kids, right, la, rfl, hl, h1, h2⟩
  have hget : ∀ {anc : List (Lab α)} {left kids right : Forest (Lab α)} {x : Lab α},
      Loc F anc left x kids right → ∃ la, LastRel g (some x.id) la kids ∧ t.nodes[x.id]? =
        some (mkLinks x (anc.head?.map (·.id)) left.lastId right.headId kids.headId la) :=
    fun hl => hl.links h.root
  let own : Nat → Option Nat := fun d => (t.nodes[d]?).bind (·.parent)
  have hown : ∀ {anc : List (Lab α)} {left kids right : Forest (Lab α)} {x : Lab α},
      Loc F anc left x kids right → own x.id = anc.head?.map (·.id) := by
    intro anc left kids right x hl
    obtain ⟨la, _, h1⟩ := hget hl
    simp only [own, h1, Option.bind_some, mkLinks]
  refine ⟨own, fun d => d, ⟨?_, ?_, ?_, ?_, ?_, ?_⟩, ?_⟩
  · intro d o hd
    cases hl : t.nodes[d]? with
    | none => simp [own, hl] at hd
    | some l =>
      obtain ⟨anc, left, x, kids, right, la, rfl, hloc, _, rfl⟩ := hid d l hl
      rw [hown hloc] at hd
      cases hloc with
      | root e => simp at hd
      | @child anc l p k r left x kids right hp e =>
        simp only [List.head?_cons, Option.map_some, Option.some.injEq] at hd
        subst hd
        obtain ⟨la', _, h1⟩ := hget hp
        refine ⟨get_lt hl, ?_, _, h1, ?_⟩
        · obtain ⟨pre, post, e'⟩ := hp.split
          refine hlt2 _ _ ?_
          rw [e', e, List.append_assoc]
          refine List.Sublist.trans ?_ (List.sublist_append_right _ _)
          refine List.Sublist.cons_cons _ ?_
          refine List.Sublist.trans ?_ (List.sublist_append_left _ _)
          rw [List.singleton_sublist]
          simp [preorder]
        · subst e
          cases left <;> simp [mkLinks, headId]
  · intro d l q hl hq
    refine .base ?_
    simp [own, hl, hq]
  · intro d l m hl hm
    obtain ⟨anc, left, x, kids, right, la, rfl, hloc, _, rfl⟩ := hid d l hl
    cases right with
    | nil => simp [mkLinks] at hm
    | cons y k r =>
      simp only [mkLinks, headId_cons, Option.some.injEq] at hm
      subst hm
      have hy : Loc F anc (left ++ single x kids) y k r := hloc.next
      obtain ⟨la', _, h1⟩ := hget hy
      refine ⟨?_, by rw [hown hy, hown hloc], _, h1, ?_⟩
      · refine hlt2 _ _ (List.Sublist.trans ?_ hloc.sibs_sublist)
        rw [preorder_append]
        refine List.Sublist.trans ?_ (List.sublist_append_right _ _)
        simp only [preorder]
        refine List.Sublist.cons_cons _ ?_
        rw [List.singleton_sublist]; simp
      · simp only [mkLinks, lastId_append]; rfl
  · intro d l p hl hp
    obtain ⟨anc, left, x, kids, right, la, rfl, hloc, _, rfl⟩ := hid d l hl
    by_cases hnil : left = .nil
    · subst hnil; simp [mkLinks] at hp
    · obtain ⟨G, y, k, rfl⟩ := exists_snoc left hnil
      have hy : Loc F anc G y k (.cons x kids right) := by
        have e : (G ++ single y k) ++ .cons x kids right = G ++ .cons y k (.cons x kids right) := by
          rw [append_assoc]; rfl
        cases hloc with
        | root e' => exact .root (e'.trans e)
        | child hq e' => exact .child hq (e'.trans e)
      obtain ⟨la', _, h1⟩ := hget hy
      have hp' : y.id = p := by
        have e : (G ++ single y k).lastId = some y.id := by rw [lastId_append]; rfl
        simp only [mkLinks, e, Option.some.injEq] at hp
        exact hp
      subst hp'
      exact ⟨_, h1, rfl⟩
  · intro d l f hl hf
    obtain ⟨anc, left, x, kids, right, la, rfl, hloc, _, rfl⟩ := hid d l hl
    cases kids with
    | nil => simp [mkLinks] at hf
    | cons y k r =>
      simp only [mkLinks, headId_cons, Option.some.injEq] at hf
      subst hf
      have hy : Loc F (x :: anc) .nil y k r := .child hloc rfl
      obtain ⟨la', _, h1⟩ := hget hy
      refine ⟨by rw [hown hy]; rfl, _, h1, rfl, rfl⟩
  · intro d l e hl he
    obtain ⟨anc, left, x, kids, right, la, rfl, hloc, hla, rfl⟩ := hid d l hl
    simp only [mkLinks] at he
    have hm : e ∈ kids.ids := by
      by_cases hk : kids = .nil
      · rw [hla.1 hk] at he; simp at he
      · obtain ⟨i, h1, h2⟩ := hla.2.1 hk
        rw [h1] at he; simp at he; subst he
        obtain ⟨y, hy, rfl⟩ := List.mem_map.1 h2
        exact List.mem_map_of_mem (mem_preorder_of_spine hy)
    obtain ⟨anc', l', y, k', r', rfl, hy⟩ := Loc.of_id hm
    have hfull := hloc.trans hy
    -- climb from `y` to `x`
    have key : ∀ (A : List (Lab α)) {l' k' r' : Forest (Lab α)} {y : Lab α},
        Loc F (A ++ x :: anc) l' y k' r' → Anc own x.id y.id := by
      intro A
      induction A with
      | nil =>
        intro l' k' r' y hy
        exact .base (by rw [hown hy]; rfl)
      | cons p A ih =>
        intro l' k' r' y hy
        have ho := hown hy
        cases hy with
        | child hp _ => exact .step ho (ih hp)
    exact key anc' hfull
  · intro f hf
    rw [h.first] at hf
    cases F with
    | nil => simp at hf
    | cons y k r =>
      simp only [headId_cons, Option.some.injEq] at hf
      subst hf
      have hy : Loc (.cons y k r) [] .nil y k r := .root rfl
      obtain ⟨la', _, h1⟩ := hget hy
      exact ⟨by rw [hown hy]; rfl, _, h1, rfl⟩

end Syntree
