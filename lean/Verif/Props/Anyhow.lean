import Verif.Props.Reading
import Verif.Props.Session
import Verif.Props.Cost
import Verif.Props.Asking

/-!
# C20, C39, C51, C60, C85 and C86 on every tree a program can get hold of

`Obtained t` (`Spec/Obtained.lean`): the tree may have been made with swallowed or foreign
checkpoints, and need not be a proper nested list.
-/

namespace Syntree

variable {α : Type} {t : Tree α}

theorem up_any {nodes : Slice α} {p : Nat → Bool} (fuel : Nat) {n : Nat} {path : List Nat}
    (hf : findPrecedingUp nodes p fuel n ≠ .diverge)
    (hp : Yields (Ancestors.next nodes) (nodeAncestors n) path) :
    (findPrecedingUp nodes p fuel n = .none ∧
      ∀ a ∈ path, ∀ b, nodePrev nodes a = some b → p b = false) ∨
    (∃ below a above b, findPrecedingUp nodes p fuel n = .some b ∧
      path = below ++ a :: above ∧
      (∀ c ∈ below, ∀ b, nodePrev nodes c = some b → p b = false) ∧
      nodePrev nodes a = some b ∧ p b = true) := by
  induction fuel generalizing n path with
  | zero => exact absurd rfl hf
  | succ fuel ih =>
    cases hp with
    | done e => simp [Ancestors.next, nodeAncestors] at e
    | @item _ s' x l e hl =>
      simp only [Ancestors.next, nodeAncestors, Prod.mk.injEq, Got.some.injEq] at e
      obtain ⟨rfl, rfl⟩ := e
      -- what happens if the previous sibling is not taken
      have go : (∀ b, nodePrev nodes n = some b → p b = false) →
          findPrecedingUp nodes p (fuel + 1) n =
            (match nodeParent nodes n with
            | none => .none
            | some q => findPrecedingUp nodes p fuel q) := by
        intro hno
        rw [findPrecedingUp.eq_2]
        cases hb : nodePrev nodes n with
        | none => rfl
        | some b => simp only [hno b hb]; rfl
      by_cases hno : ∀ b, nodePrev nodes n = some b → p b = false
      · rw [go hno] at hf ⊢
        cases hq : nodeParent nodes n with
        | none =>
          rw [hq] at hl
          cases hl with
          | item e _ => simp [Ancestors.next] at e
          | done _ =>
            left
            exact ⟨rfl, by
              intro a ha
              simp only [List.mem_singleton] at ha
              subst ha; exact hno⟩
        | some q =>
          rw [hq] at hl hf
          rcases ih hf hl with ⟨h1, h2⟩ | ⟨below, a, above, b, h1, h2, h3, h4, h5⟩
          · left
            refine ⟨h1, ?_⟩
            intro a ha
            rcases List.mem_cons.1 ha with rfl | ha
            · exact hno
            · exact h2 a ha
          · right
            refine ⟨n :: below, a, above, b, h1, by rw [h2]; rfl, ?_, h4, h5⟩
            intro c hc
            rcases List.mem_cons.1 hc with rfl | hc
            · exact hno
            · exact h3 c hc
      · right
        have : ∃ b, nodePrev nodes n = some b ∧ p b = true := by
          cases hb : nodePrev nodes n with
          | none => exact absurd (by intro b h; rw [hb] at h; simp at h) hno
          | some b =>
            refine ⟨b, rfl, ?_⟩
            cases hpb : p b with
            | true => rfl
            | false =>
              refine absurd ?_ hno
              intro c hc
              rw [hb] at hc
              simp only [Option.some.injEq] at hc
              subst hc; exact hpb
        obtain ⟨b, hb, hpb⟩ := this
        refine ⟨[], n, l, b, ?_, rfl, by simp, hb, hpb⟩
        unfold findPrecedingUp
        simp [hb, hpb]

theorem down_any {nodes : Slice α} {p : Nat → Bool} (fuel : Nat) {b : Nat}
    (hf : findPrecedingDown nodes p fuel b ≠ .diverge) :
    ∃ m, findPrecedingDown nodes p fuel b = .some m ∧ Descends (nodeLast nodes) p b m := by
  induction fuel generalizing b with
  | zero => exact absurd rfl hf
  | succ fuel ih =>
    unfold findPrecedingDown at hf ⊢
    cases hl : nodeLast nodes b with
    | none => exact ⟨b, rfl, .stop (by rw [hl]; simp)⟩
    | some c =>
      rw [hl] at hf
      simp only at hf ⊢
      cases hc : p c with
      | false => exact ⟨b, rfl, .stop (by rw [hl]; simp [hc])⟩
      | true =>
        simp only [hc, Bool.not_true, Bool.false_eq_true, if_false] at hf ⊢
        obtain ⟨m, h1, h2⟩ := ih hf
        exact ⟨m, h1, .down hl hc h2⟩

/-- C20 on every tree a program can get hold of: `ancestors()` of a node ends, and
`find_preceding(p)` takes the first node of it whose previous sibling satisfies `p`, and descends
from that sibling through `last()` while it satisfies `p`; it is `None` iff there is no such node,
and the result satisfies `p`. -/
theorem C20_any_tree (h : Obtained t) (p : Nat → Bool) {i : Nat} (hi : i < t.len) :
    ∃ path, Yields (Ancestors.next t.nodes) (nodeAncestors i) path ∧
    ((findPreceding t.nodes p i = .none ∧
      ∀ a ∈ path, ∀ b, nodePrev t.nodes a = some b → p b = false) ∨
    (∃ m below a above b, findPreceding t.nodes p i = .some m ∧ p m = true ∧
      path = below ++ a :: above ∧
      (∀ c ∈ below, ∀ b, nodePrev t.nodes c = some b → p b = false) ∧
      nodePrev t.nodes a = some b ∧ p b = true ∧ Descends (nodeLast t.nodes) p b m)) := by
  obtain ⟨path, hp, _⟩ := (C49_siblings_ancestors_end h hi).2
  refine ⟨path, hp, ?_⟩
  have hd := (C49_queries_end h).1 p i hi
  unfold findPreceding at hd ⊢
  have hu : findPrecedingUp t.nodes p (t.nodes.length + 1) i ≠ .diverge := by
    intro e; rw [e] at hd; exact hd rfl
  rcases up_any _ hu hp with ⟨h1, h2⟩ | ⟨below, a, above, b, h1, h2, h3, h4, h5⟩
  · left; rw [h1]; exact ⟨rfl, h2⟩
  · right
    rw [h1] at hd ⊢
    obtain ⟨m, h6, h7⟩ := down_any _ hd
    exact ⟨m, below, a, above, b, h6, h7.pred h5, h2, h3, h4, h5, h7⟩

/-- The witness of `C49`, a tree that is not a nested list: node 5 is a root, and its previous
sibling is node 4, whose last child is node 2. -/
example : findPreceding wildTree.nodes (fun _ => true) 5 = .some 2 := rfl
example := C20_any_tree wild_obtained (fun _ => true) (i := 5) (by decide)

/-- Comparing two lists of nodes with their depths. -/
theorem listEq_decide [DecidableEq α] {n n' : Slice α} {l l' : List (Int × Nat)}
    (h : ∀ q ∈ l, q.2 < n.length) (h' : ∀ q ∈ l', q.2 < n'.length) :
    listEq (fun x y => x.1 == y.1 && nodeEq n x.2 n' y.2) l l' =
      decide (l.map ((fun p => (p.1, p.2.2)) ∘ fun p => (p.1, p.2, nodeValue n p.2, nodeSpan n p.2)) =
        l'.map ((fun p => (p.1, p.2.2)) ∘ fun p => (p.1, p.2, nodeValue n' p.2, nodeSpan n' p.2))) := by
  induction l generalizing l' with
  | nil => cases l' <;> simp [listEq]
  | cons q l ih =>
    cases l' with
    | nil => simp [listEq]
    | cons q' l' =>
      have h1 := h q (by simp)
      have h2 := h' q' (by simp)
      simp only [listEq]
      rw [ih (fun q hq => h q (by simp [hq])) (fun q hq => h' q (by simp [hq]))]
      rw [Bool.eq_iff_iff]
      simp only [List.map_cons, List.cons.injEq, Function.comp, Prod.mk.injEq, Bool.and_eq_true,
        nodeEq, nodeValue, nodeSpan, List.getElem?_eq_getElem h1, List.getElem?_eq_getElem h2,
        Option.map_some, Option.some.injEq, and_assoc, beq_iff_eq, decide_eq_true_eq]
      exact ⟨fun ⟨a, b, c, d⟩ => ⟨a, b, c, of_decide_eq_true d⟩,
        fun ⟨a, b, c, d⟩ => ⟨a, b, c, decide_eq_true d⟩⟩

/-- C39 on every tree a program can get hold of: `==` always answers, and it is an equivalence; two
trees are equal iff walking them with depths and spans lists the same. -/
theorem C39_any_trees [DecidableEq α] {a b c : Tree α} (ha : Obtained a) (hb : Obtained b)
    (hc : Obtained c) :
    a.eq a = some true ∧ a.eq b = b.eq a ∧ a.eq b ≠ none ∧
    (a.eq b = some true → b.eq c = some true → a.eq c = some true) ∧
    (a.eq b = some true ↔ ∃ la lb, a.listing = some la ∧ b.listing = some lb ∧
      la.map (fun p => (p.1, p.2.2)) = lb.map (fun p => (p.1, p.2.2))) := by
  have walk : ∀ {t : Tree α}, Obtained t → ∃ l, Yields (WithDepths.next t.nodes) t.walk l ∧
      l.length ≤ t.nodes.length ∧ ∀ q ∈ l, q.2 < t.nodes.length := by
    intro t h
    obtain ⟨l, h1, h2, h3⟩ := (C49_tree_walks_end h).2.2.1
    refine ⟨l, h1, ?_, h3⟩
    have := length_le_of_lt t.nodes.length _ h2 (by
      intro x hx
      obtain ⟨p, hp, rfl⟩ := List.mem_map.1 hx
      exact h3 p hp)
    simpa using this
  have key : ∀ {a b : Tree α}, Obtained a → Obtained b →
      ∃ la lb, a.listing = some la ∧ b.listing = some lb ∧
        a.eq b = some (decide (la.map (fun p => (p.1, p.2.2)) = lb.map (fun p => (p.1, p.2.2)))) := by
    intro a b ha hb
    obtain ⟨l, h1, h2, h3⟩ := walk ha
    obtain ⟨l', h1', h2', h3'⟩ := walk hb
    refine ⟨_, _, forLoop_of_yields h1 _ (Nat.lt_succ_of_le h2),
      forLoop_of_yields h1' _ (Nat.lt_succ_of_le h2'), ?_⟩
    unfold Tree.eq
    rw [iterEq_of_yields _ h1 h1' _ (Nat.lt_succ_of_le h2), List.map_map, List.map_map]
    exact congrArg some (listEq_decide h3 h3')
  obtain ⟨l1, l2, e1, e2, e3⟩ := key ha hb
  obtain ⟨l3, l4, e4, e5, e6⟩ := key hb hc
  obtain ⟨l5, l6, e7, e8, e9⟩ := key ha hc
  obtain ⟨l7, l8, e10, e11, e12⟩ := key hb ha
  obtain ⟨l9, l10, e13, e14, e15⟩ := key ha ha
  rw [e2] at e4 e10
  rw [e1] at e7 e11 e13 e14
  rw [e5] at e8
  simp only [Option.some.injEq] at e4 e7 e8 e10 e11 e13 e14
  subst e4 e7 e8 e10 e11 e13 e14
  refine ⟨?_, ?_, ?_, ?_, ?_⟩
  · rw [e15]; simp
  · rw [e3, e12]
    congr 1
    exact decide_eq_decide.2 ⟨fun h => h.symm, fun h => h.symm⟩
  · rw [e3]; simp
  · rw [e3, e6, e9]
    simp only [Option.some.injEq, decide_eq_true_eq]
    exact fun h h' => h.trans h'
  · rw [e3]
    simp only [Option.some.injEq, decide_eq_true_eq]
    exact ⟨fun h => ⟨_, _, e1, e2, h⟩, by
      rintro ⟨la, lb, g1, g2, g3⟩
      rw [e1] at g1; rw [e2] at g2
      simp only [Option.some.injEq] at g1 g2
      subst g1 g2; exact g3⟩

/-- The two trees below are different lists of nodes; they are not equal. -/
example : wildTree.eq wildTree = some true ∧ wildTree.eq Tree.empty = some false := by decide
example := C39_any_trees wild_obtained wild_obtained wild_obtained

theorem InSeg.head {nodes : Slice α} {F : Forest (Lab α)} (h : InSeg nodes F) :
    F.headId.bind (nodeAt nodes) = (F.tops.map (·.id)).head? := by
  cases F with
  | nil => rfl
  | cons x k r =>
    obtain ⟨l, e, _⟩ := h.get
    show nodeAt nodes x.id = some x.id
    unfold nodeAt; rw [e]

theorem InSeg.follows {nodes : Slice α} {F : Forest (Lab α)} (h : InSeg nodes F) :
    F.Follows nodes := by
  induction F with
  | nil => trivial
  | cons x k r ihk ihr =>
    obtain ⟨l, e, e1, e2, e3, e4⟩ := h.get
    refine ⟨by simp [nodeValue, e, e1], by simp [nodeSpan, e, e2], ?_, ?_, ihk h.kids, ihr h.rest⟩
    · rw [← h.kids.head, ← e3]
      unfold nodeFirst follow; rw [e]
      dsimp only; cases l.first <;> rfl
    · rw [← h.rest.head, ← e4]
      unfold nodeNext follow; rw [e]
      dsimp only; cases l.next <;> rfl

theorem Forest.Follows.unique {nodes : Slice α} {F G : Forest (Lab α)} (h : F.Follows nodes)
    (h' : G.Follows nodes) (e : (F.tops.map (·.id)).head? = (G.tops.map (·.id)).head?) : F = G := by
  induction F generalizing G with
  | nil =>
    cases G with
    | nil => rfl
    | cons => simp [Forest.tops] at e
  | cons x k r ihk ihr =>
    cases G with
    | nil => simp [Forest.tops] at e
    | cons y k' r' =>
      simp only [Forest.tops, List.map_cons, List.head?_cons, Option.some.injEq] at e
      obtain ⟨a1, a2, a3, a4, a5, a6⟩ := h
      obtain ⟨b1, b2, b3, b4, b5, b6⟩ := h'
      rw [← e] at b1 b2 b3 b4
      rw [a1] at b1; rw [a2] at b2; rw [a3] at b3; rw [a4] at b4
      simp only [Option.some.injEq] at b1 b2
      rw [ihk a5 b5 b3, ihr a6 b6 b4]
      cases x; cases y; simp_all

/-- C51 on every tree a program can get hold of: there is exactly one nested list that a client sees
who follows `first()` and `next()`, and what `modify` does with any change set is what the rules of
`Edited` say about this nested list. -/
theorem C51_any_tree {fl : Flavor} (h : Obtained t) :
    ∃ F : Forest (Lab α), F.Follows t.nodes ∧ t.firstNode = (F.tops.map (·.id)).head? ∧
      (∀ F' : Forest (Lab α), F'.Follows t.nodes → t.firstNode = (F'.tops.map (·.id)).head? →
        F' = F) ∧
      ∀ c : ChangeSet, ∃ G cut, Edited c.changes false 0 F G cut ∧
        (∀ G' cut', Edited c.changes false 0 F G' cut' → G' = G ∧ cut' = cut) ∧
        IsCopyCut fl (c.modify fl t) G cut := by
  obtain ⟨F, h1, h2, _, _, h5⟩ := h.sane.half
  refine ⟨F, h1.follows, h2, fun F' g1 g2 => g1.unique h1.follows (by rw [← g2, h2]; rfl), ?_⟩
  intro c
  obtain ⟨G, cut, hE⟩ := Edited.total c.changes 0 F
  exact ⟨G, cut, hE, fun _ _ h' => hE.unique h', copy_edited_of (modify_half h1 h2 h5 c) hE⟩

/-- For the witness, the nested list is `3 ⇒ {0, 4 ⇒ {1, 2}, 5}`, and a copy of it has a node 5
below node 3 of the original. -/
def wildForest : Forest (Lab Nat) :=
  .cons ⟨3, 4, ⟨0, 3⟩⟩ (.cons ⟨0, 1, ⟨0, 1⟩⟩ .nil
    (.cons ⟨4, 5, ⟨1, 3⟩⟩ (.cons ⟨1, 2, ⟨1, 2⟩⟩ .nil (.cons ⟨2, 3, ⟨2, 3⟩⟩ .nil .nil))
      (.cons ⟨5, 6, ⟨3, 4⟩⟩ .nil .nil))) .nil

example : wildForest.Follows wildTree.nodes ∧
    wildTree.firstNode = (wildForest.tops.map (·.id)).head? := by
  refine ⟨?_, rfl⟩
  repeat (first | exact trivial | refine ⟨rfl, rfl, rfl, rfl, ?_, ?_⟩)

example : ∃ G cut, Edited [] false 0 wildForest G cut ∧
    IsCopyCut Flavor.default (ChangeSet.new.modify Flavor.default wildTree) G cut := by
  obtain ⟨F, _, _, h3, h4⟩ := C51_any_tree (fl := Flavor.default) wild_obtained
  have e : wildForest = F := h3 _ (by
    repeat (first | exact trivial | refine ⟨rfl, rfl, rfl, rfl, ?_, ?_⟩)) rfl
  obtain ⟨G, cut, g1, _, g3⟩ := h4 ChangeSet.new
  exact ⟨G, cut, e ▸ g1, g3⟩

/-! ## C85 -/

theorem ascendWith_any {μ : Type} {nodes : Slice α} (p : μ → Nat → μ × Bool) (path : List Nat) :
    ∀ {n : Nat} {fuel : Nat} (m : μ), Yields (Ancestors.next nodes) (nodeAncestors n) path →
    path.length ≤ fuel →
    let r := askUntil p m (path.filterMap (nodePrev nodes))
    findPrecedingUpWith nodes p fuel m n = (r.1, Got.ofOption r.2) := by
  induction path with
  | nil =>
    intro n fuel m h
    cases h with
    | done e => simp [Ancestors.next, nodeAncestors] at e
  | cons y path ih =>
    intro n fuel m h hf
    cases h with
    | @item _ s' _ _ e hl =>
    simp only [Ancestors.next, nodeAncestors, Prod.mk.injEq, Got.some.injEq] at e
    obtain ⟨rfl, rfl⟩ := e
    cases fuel with
    | zero => simp at hf
    | succ fuel =>
      simp only [List.length_cons, Nat.add_le_add_iff_right] at hf
      simp only [findPrecedingUpWith]
      cases hq : nodeParent nodes n with
      | none =>
        rw [hq] at hl
        cases hl with
        | item e _ => simp [Ancestors.next] at e
        | done _ =>
          cases hprev : nodePrev nodes n with
          | none => simp [hprev, askUntil, Got.ofOption]
          | some b => rcases hp : p m b with ⟨m', _ | _⟩ <;> simp [hprev, askUntil, hp, Got.ofOption]
      | some q =>
        rw [hq] at hl
        cases hprev : nodePrev nodes n with
        | none =>
          simp only [List.filterMap_cons, hprev]
          exact ih m hl hf
        | some b =>
          rcases hp : p m b with ⟨m', _ | _⟩
          · simp only [List.filterMap_cons, hprev, askUntil, hp, Bool.false_eq_true, if_false]
            exact ih m' hl hf
          · simp [hprev, askUntil, hp, Got.ofOption]

theorem Own.lastChain {nodes : Slice α} {own : Nat → Option Nat} {rank : Nat → Nat}
    (h : Own nodes own rank) {dep : Nat → Nat} (hd : Dep own dep) :
    ∀ (k n : Nat), n < nodes.length → nodes.length - dep n ≤ k →
      ∃ l, Iterated (nodeLast nodes) n l ∧ l.length < k := by
  intro k
  induction k with
  | zero => intro n hl hn; have := h.dep_lt hd hl; omega
  | succ k ih =>
    intro n hl hn
    cases hq : nodeLast nodes n with
    | none => exact ⟨[], .stop hq, Nat.succ_pos _⟩
    | some q =>
      have := h.last_dep hd hq
      obtain ⟨l, h1, h2⟩ := ih q this.2 (by omega)
      exact ⟨q :: l, .step hq h1, by simp; omega⟩

/-- C85 on every tree a program can get hold of: what the predicate passed to `find_preceding` is
asked is as said in `C85_find_preceding`. -/
theorem C85_any_tree {μ : Type} (h : Obtained t) (p : μ → Nat → μ × Bool) (m : μ) {i : Nat}
    (hi : i < t.len) :
    ∃ path, Yields (Ancestors.next t.nodes) (nodeAncestors i) path ∧
    let up := askUntil p m (path.filterMap (nodePrev t.nodes))
    (up.2 = none → findPrecedingWith t.nodes p m i = (up.1, .none)) ∧
    ∀ b, up.2 = some b → ∃ chain, Iterated (nodeLast t.nodes) b chain ∧
      findPrecedingWith t.nodes p m i =
        ((askWhile p up.1 b chain).1, .some (askWhile p up.1 b chain).2) := by
  obtain ⟨path, hp, hn, hlt⟩ := (C49_siblings_ancestors_end h hi).2
  refine ⟨path, hp, ?_⟩
  obtain ⟨own, rank, ho, _⟩ := h.sane
  obtain ⟨dep, hd⟩ := ho.dep
  have hlen : path.length ≤ t.nodes.length := length_le_of_lt _ _ hn hlt
  have hup := ascendWith_any p path (fuel := t.nodes.length + 1) m hp (by omega)
  simp only at hup ⊢
  refine ⟨fun hn => ?_, fun b hb => ?_⟩
  · rw [hn] at hup
    simp [findPrecedingWith, hup, Got.ofOption]
  · rw [hb] at hup
    have hmem : b ∈ path.filterMap (nodePrev t.nodes) := by
      have key : ∀ (l : List Nat) (m : μ), (askUntil p m l).2 = some b → b ∈ l := by
        intro l
        induction l with
        | nil => intro m h; simp [askUntil] at h
        | cons y l ih =>
          intro m h
          simp only [askUntil] at h
          split at h
          · simp only [Option.some.injEq] at h; simp [h]
          · exact List.mem_cons_of_mem _ (ih _ h)
      exact key _ _ hb
    obtain ⟨a, _, ha⟩ := List.mem_filterMap.1 hmem
    obtain ⟨l, h1, h2⟩ := ho.lastChain hd (t.nodes.length + 1) b (nodePrev_lt ho ha) (by omega)
    refine ⟨l, h1, ?_⟩
    simp only [findPrecedingWith, hup, Got.ofOption]
    exact descendWith _ _ h1 _ _ h2

example : findPrecedingWith wildTree.nodes (fun m n => (m ++ [n], true)) [] 5 = ([4, 2], .some 2) := rfl
example := C85_any_tree wild_obtained (fun m n => (m ++ [n], true)) [] (i := 5) (by decide)

theorem follow_some {nodes : Slice α} {n q : Nat} {link : Links α → Option Nat}
    (e : follow nodes n link = some q) : ∃ l, nodes[n]? = some l ∧ link l = some q := by
  unfold follow at e
  split at e
  · simp at e
  · rename_i l hl
    split at e
    · simp at e
    · rename_i i hi
      unfold nodeAt at e
      split at e
      · simp at e
      · simp only [Option.some.injEq] at e; subst e
        exact ⟨l, hl, hi⟩

section
variable {nodes : Slice α} {own : Nat → Option Nat} {rank : Nat → Nat}

theorem Own.prev_own (h : Own nodes own rank) {n b : Nat} (e : nodePrev nodes n = some b) :
    b < n ∧ own b = own n ∧ ∀ n', nodePrev nodes n' = some b → n' = n := by
  obtain ⟨l, hl, hp⟩ := follow_some e
  obtain ⟨lp, h1, h2⟩ := h.prev n l b hl hp
  obtain ⟨h3, h4, _⟩ := h.next b lp n h1 h2
  refine ⟨h3, h4.symm, ?_⟩
  intro n' e'
  obtain ⟨l', hl', hp'⟩ := follow_some e'
  obtain ⟨lp', h1', h2'⟩ := h.prev n' l' b hl' hp'
  rw [h1] at h1'
  simp only [Option.some.injEq] at h1'
  subst h1'
  rw [h2] at h2'
  simpa using h2'.symm

/-- Everything on the path from a node is above what comes before it. -/
theorem Own.path_above (h : Own nodes own rank) {n : Nat} {path : List Nat}
    (hp : Yields (Ancestors.next nodes) (nodeAncestors n) path) :
    path.Pairwise (fun c a => Anc own a c) ∧ ∀ a ∈ path, AncS own a n := by
  induction path generalizing n with
  | nil => simp
  | cons y path ih =>
    cases hp with
    | @item _ s' _ _ e hl =>
    simp only [Ancestors.next, nodeAncestors, Prod.mk.injEq, Got.some.injEq] at e
    obtain ⟨rfl, rfl⟩ := e
    cases hq : nodeParent nodes n with
    | none =>
      rw [hq] at hl
      cases hl with
      | item e _ => simp [Ancestors.next] at e
      | done _ => exact ⟨by simp, by simp [AncS]⟩
    | some q =>
      rw [hq] at hl
      obtain ⟨g1, g2⟩ := ih hl
      obtain ⟨l, hl1, hl2⟩ := follow_some hq
      have hqn := h.par n l q hl1 hl2
      have hall : ∀ a ∈ path, Anc own a n := by
        intro a ha
        rcases g2 a ha with rfl | h'
        · exact hqn
        · exact h'.trans hqn
      refine ⟨List.pairwise_cons.2 ⟨hall, g1⟩, ?_⟩
      intro a ha
      rcases List.mem_cons.1 ha with rfl | ha
      · exact .inl rfl
      · exact .inr (hall a ha)

/-- Everything reached through `last()` is below. -/
theorem Own.chain_below (h : Own nodes own rank) {b : Nat} {chain : List Nat}
    (hc : Iterated (nodeLast nodes) b chain) :
    chain.Pairwise (fun a c => Anc own a c) ∧ ∀ c ∈ chain, Anc own b c := by
  induction hc with
  | stop _ => simp
  | @step b c l e _ ih =>
    obtain ⟨l', hl1, hl2⟩ := follow_some e
    have hbc := h.last b l' c hl1 hl2
    refine ⟨List.pairwise_cons.2 ⟨ih.2, ih.1⟩, ?_⟩
    intro x hx
    rcases List.mem_cons.1 hx with rfl | hx
    · exact hbc
    · exact hbc.trans (ih.2 x hx)

theorem Own.candidates_nodup (h : Own nodes own rank) {n b : Nat} {path chain : List Nat}
    (hp : Yields (Ancestors.next nodes) (nodeAncestors n) path)
    (hb : b ∈ path.filterMap (nodePrev nodes)) (hc : Iterated (nodeLast nodes) b chain) :
    (path.filterMap (nodePrev nodes) ++ chain).Nodup := by
  obtain ⟨dep, hd⟩ := h.dep
  have g1 := (h.path_above hp).1
  obtain ⟨k1, k2⟩ := h.chain_below hc
  refine List.nodup_append.2 ⟨?_, k1.imp (fun h e => by subst e; have := hd.lt h; omega), ?_⟩
  · clear hb
    clear hp
    induction path with
    | nil => simp
    | cons y path ih =>
      rw [List.pairwise_cons] at g1
      cases hy : nodePrev nodes y with
      | none => rw [List.filterMap_cons_none hy]; exact ih g1.2
      | some z =>
        rw [List.filterMap_cons_some hy]
        refine List.nodup_cons.2 ⟨?_, ih g1.2⟩
        intro hz
        obtain ⟨a, ha, ha'⟩ := List.mem_filterMap.1 hz
        have := (h.prev_own hy).2.2 a ha'
        subst this
        have := hd.lt (g1.1 _ ha); omega
  · intro u hu c hc' e
    subst e
    obtain ⟨a, ha, hab⟩ := List.mem_filterMap.1 hb
    obtain ⟨a', ha', hau⟩ := List.mem_filterMap.1 hu
    obtain ⟨p1, p2, _⟩ := h.prev_own hab
    obtain ⟨_, q2, q3⟩ := h.prev_own hau
    have e1 := hd.sibs p2
    have e2 := hd.sibs q2
    have hbu := k2 u hc'
    have hlt := hd.lt hbu
    -- `a'` is deeper than `a`, so it is below `a`
    have hbel : Anc own a a' := by
      have tri : ∀ {l : List Nat}, l.Pairwise (fun c a => Anc own a c) → a ∈ l → a' ∈ l →
          a = a' ∨ Anc own a a' ∨ Anc own a' a := by
        intro l hl
        induction l with
        | nil => simp
        | cons y l ih =>
          intro m1 m2
          rw [List.pairwise_cons] at hl
          rcases List.mem_cons.1 m1 with r1 | k1
          · rcases List.mem_cons.1 m2 with r2 | k2
            · exact .inl (r1.trans r2.symm)
            · exact .inr (.inr (r1 ▸ hl.1 _ k2))
          · rcases List.mem_cons.1 m2 with r2 | k2
            · exact .inr (.inl (r2 ▸ hl.1 _ k1))
            · exact ih hl.2 k1 k2
      rcases tri g1 ha ha' with r | r | r
      · subst r; omega
      · exact r
      · have := hd.lt r; omega
    have hau' : Anc own a u := by
      cases hbel with
      | base e => exact .base (q2.trans e)
      | step e h' => exact .step (q2.trans e) h'
    have := hd.uniq _ rfl (.inr hau') (.inr hbu) e1.symm
    omega
end

/-- C85 on every tree a program can get hold of: `find_preceding` never asks about a node twice. -/
theorem C85_asked_once_any_tree (h : Obtained t) (answer : List Nat → Nat → Bool) {i : Nat}
    (hi : i < t.len) : (findPrecedingWith t.nodes (logged answer) [] i).1.Nodup := by
  obtain ⟨path, hp, hk⟩ := C85_any_tree h (logged answer) [] hi
  obtain ⟨own, rank, ho, _⟩ := h.sane
  obtain ⟨l', rest, e, h1, h2⟩ := askUntil_logged answer (path.filterMap (nodePrev t.nodes)) []
  simp only [List.nil_append] at h1
  cases hb : (askUntil (logged answer) [] (path.filterMap (nodePrev t.nodes))).2 with
  | none =>
    rw [hk.1 hb]
    simp only [h1]
    -- the first part of a list without repetitions
    by_cases hne : ∃ b, b ∈ path.filterMap (nodePrev t.nodes)
    · obtain ⟨b, hb⟩ := hne
      obtain ⟨a, _, ha⟩ := List.mem_filterMap.1 hb
      obtain ⟨dep, hd⟩ := ho.dep
      obtain ⟨chain, hc, _⟩ := ho.lastChain hd _ b (nodePrev_lt ho ha) (Nat.le_refl _)
      have hn := ho.candidates_nodup hp hb hc
      rw [e, List.append_assoc] at hn
      exact (List.nodup_append.1 hn).1
    · have : l' = [] := by
        cases l' with
        | nil => rfl
        | cons x _ => exact absurd ⟨x, by rw [e]; simp⟩ hne
      rw [this]; simp
  | some b =>
    obtain ⟨chain, hc, h3⟩ := hk.2 b hb
    have hmem : b ∈ path.filterMap (nodePrev t.nodes) := by
      rw [e]; exact List.mem_append_left _ (h2 b hb)
    have hall := ho.candidates_nodup hp hmem hc
    obtain ⟨c', rest', e', h4⟩ := askWhile_logged answer chain l' b
    rw [h3, h1]
    simp only [h4]
    refine List.Sublist.nodup ?_ hall
    rw [e, e']
    exact (List.sublist_append_left _ _).append (List.sublist_append_left _ _)

example : (findPrecedingWith wildTree.nodes (logged fun _ _ => true) [] 5).1 = [4, 2] ∧
    (findPrecedingWith wildTree.nodes (logged fun _ _ => true) [] 5).1.Nodup :=
  ⟨rfl, C85_asked_once_any_tree wild_obtained _ (by decide)⟩

/-! ## C60, C61 -/

/-- C60, C61 on every tree a program can get hold of: each iterator stands for one list of nodes
(which it yields when it is simply used up, and in which no node is repeated), and a program that
calls `next()`, `next_node()`, `find(p)` and `skip_tokens().find(p)` on it in any order, and replaces
values in between, sees this list. -/
theorem C60_any_tree (h : Obtained t) (cs : List (Cmd α)) (hc : ∀ c ∈ cs, c.forward = true) :
    (∀ w, w = t.walk ∨ (∃ n, n < t.len ∧ (w = nodeWalk n ∨ w = nodeWalkFrom n)) →
      (∃ l, Yields (Walk.next t.nodes) w l ∧ l.Nodup ∧ Plays Walk.next Walk.next cs t.nodes w l) ∧
      ∃ l, Yields (Inside.next t.nodes) w l ∧ l.Nodup ∧
        Plays Inside.next Inside.next cs t.nodes w l) ∧
    (∀ c, c = t.children ∨ (∃ n, c = nodeChildren t.nodes n) →
      ∃ l, Yields (Children.next t.nodes) c l ∧ l.Nodup ∧
        Plays Children.next Children.next cs t.nodes c l) ∧
    ∀ n, n < t.len →
      (∃ l, Yields (Siblings.next t.nodes) (nodeSiblings n) l ∧ l.Nodup ∧
        Plays Siblings.next Siblings.next cs t.nodes (nodeSiblings n) l) ∧
      ∃ l, Yields (Ancestors.next t.nodes) (nodeAncestors n) l ∧ l.Nodup ∧
        Plays Ancestors.next Ancestors.next cs t.nodes (nodeAncestors n) l := by
  have fu := fun nodes : Slice α => C19_fused nodes
  have hw : ∀ w, w = t.walk ∨ (∃ n, n < t.len ∧ (w = nodeWalk n ∨ w = nodeWalkFrom n)) →
      (∃ l, Yields (Walk.next t.nodes) w l ∧ l.Nodup ∧ ∀ i ∈ l, i < t.len) ∧
      (∃ l, Yields (Inside.next t.nodes) w l ∧ l.Nodup ∧ ∀ i ∈ l, i < t.len) := by
    rintro w (rfl | ⟨n, hn, hw⟩)
    · have := C49_tree_walks_end h
      exact ⟨this.2.1, this.2.2.2⟩
    · have := C49_node_walks_end h hn hw
      exact ⟨this.2.1, this.2.2.2⟩
  refine ⟨?_, ?_, ?_⟩
  · intro w e
    obtain ⟨⟨l, a1, a2, a3⟩, ⟨l', b1, b2, b3⟩⟩ := hw w e
    exact ⟨⟨l, a1, a2, plays_forward (replace_same (f := fun _ n => Walk.next n) walk_next_bare)
        (fun n => (fu n).2.1) hc a1 (length_le_of_lt _ _ a2 a3)⟩,
      ⟨l', b1, b2, plays_forward (replace_same (f := fun _ n => Inside.next n) inside_next_bare)
        (fun n => (fu n).2.2.2.1) hc b1 (length_le_of_lt _ _ b2 b3)⟩⟩
  · intro c e
    obtain ⟨⟨l, a1, a2, a3⟩, _⟩ := C49_children_end h e
    exact ⟨l, a1, a2, plays_forward (replace_same (f := fun _ n => Children.next n)
      children_next_bare) (fun n => (fu n).2.2.2.2.2.2.1) hc a1 (length_le_of_lt _ _ a2 a3)⟩
  · intro n hn
    obtain ⟨⟨l, a1, a2, a3⟩, ⟨l', b1, b2, b3⟩⟩ := C49_siblings_ancestors_end h hn
    exact ⟨⟨l, a1, a2, plays_forward (replace_same (f := fun _ n => Siblings.next n)
        siblings_next_bare) (fun n => (fu n).2.2.2.2.1) hc a1 (length_le_of_lt _ _ a2 a3)⟩,
      ⟨l', b1, b2, plays_forward (replace_same (f := fun _ n => Ancestors.next n)
        ancestors_next_bare) (fun n => (fu n).2.2.2.2.2.1) hc b1 (length_le_of_lt _ _ b2 b3)⟩⟩

/-- Read the first node of the witness, overwrite node 4, ask for the next node with children: it is
4, with the new value; then look for an id above 1. -/
example : ∃ l, Yields (Walk.next wildTree.nodes) wildTree.walk l ∧
    Plays Walk.next Walk.next [.ask .next, .replace 4 9, .ask .nextNode,
      .ask (.find fun i => decide (1 < i))] wildTree.nodes wildTree.walk l :=
  let ⟨l, h1, _, h3⟩ := ((C60_any_tree wild_obtained _ (by decide)).1 _ (.inl rfl)).1
  ⟨l, h1, h3⟩

/-! ## C86 -/

theorem climb_any {nodes : Slice α} (stop fuel : Nat) {i : Nat} {path : List Nat}
    (hp : Yields (Ancestors.next nodes) (nodeAncestors i) path) :
    climbSteps nodes stop fuel i ≤ path.length := by
  induction fuel generalizing i path with
  | zero => exact Nat.zero_le _
  | succ fuel ih =>
    cases hp with
    | done e => cases e
    | @item _ s' x l e hr =>
      cases e
      simp only [climbSteps, List.length_cons]
      cases hq : nodeParent nodes i with
      | none => simp
      | some q =>
        simp only
        rw [hq] at hr
        have := ih hr
        cases nodeSpan nodes q with
        | none => simp
        | some sp => simp only; split <;> omega

/-- C86 on every tree a program can get hold of: a complete walk over the tree, or from any of its
nodes, takes at most `2 * len() + 1` lookups, and a range query that the index sends to node `i` no
more than `i` has ancestors, and one; this is at most `len()`. -/
theorem C86_any_tree (h : Obtained t) :
    (∀ w, w = t.walk ∨ (∃ n, n < t.len ∧ (w = nodeWalk n ∨ w = nodeWalkFrom n)) →
      ∃ l n, Spends (Walk.next t.nodes) (Walk.steps t.nodes (t.len + 1)) w l n ∧
        Yields (Walk.next t.nodes) w l ∧ n ≤ 2 * t.len + 1) ∧
    ∀ i, i < t.len → ∃ path, Yields (Ancestors.next t.nodes) (nodeAncestors i) path ∧
      path.length ≤ t.len ∧ ∀ stop fuel, climbSteps t.nodes stop fuel i ≤ path.length := by
  obtain ⟨own, rank, ho, hf⟩ := h.sane
  have walk : ∀ n, n < t.len → ∀ e, ∃ l k,
      Spends (Walk.next t.nodes) (Walk.steps t.nodes (t.len + 1)) ⟨some (n, e), 0⟩ l k ∧
        Yields (Walk.next t.nodes) ⟨some (n, e), 0⟩ l ∧ k ≤ 2 * t.len + 1 := by
    intro n hn e
    obtain ⟨l, h1, h2, h3, h4, h5⟩ := ho.rest hn e 0
    have hu : ups l ≤ t.nodes.length := by
      rw [← outs_length]; exact length_le_of_lt _ _ h3 h5
    have hs := h1.walkSpends (t.nodes.length + 1) _ (by omega)
    obtain ⟨⟨l', e1, e2⟩, _⟩ := walks_end ho hn e 0
    have : l'.length = l.length := by
      have := e1.det h1.events
      rw [this]; simp
    exact ⟨_, _, hs, h1.walk hu, by omega⟩
  refine ⟨?_, ?_⟩
  · rintro w (rfl | ⟨n, hn, rfl | rfl⟩)
    · unfold Tree.walk WalkEvents.new
      cases hx : t.first with
      | none => exact ⟨[], _, .done rfl, .done rfl, by simp [Walk.steps, WalkEvents.next]⟩
      | some f => exact walk f (hf.lt hx) .next
    · exact walk n hn .next
    · exact walk n hn .up
  · intro i hi
    obtain ⟨_, l', b1, b2, b3⟩ := C49_siblings_ancestors_end h hi
    exact ⟨l', b1, length_le_of_lt _ _ b2 b3, fun stop fuel => climb_any stop fuel b1⟩

/-- The walk of the witness, which is not a nested list: it never comes back to node 3, so it takes
one lookup less than the walk of a nested list of this shape. -/
example : Spends (Walk.next wildTree.nodes) (Walk.steps wildTree.nodes 7) wildTree.walk
      [3, 0, 4, 1, 2, 5] 8 ∧
    (∃ l n, Spends (Walk.next wildTree.nodes) (Walk.steps wildTree.nodes 7) (nodeWalk 4) l n ∧
      n ≤ 13) ∧ climbSteps wildTree.nodes 99 7 2 ≤ 3 := by
  obtain ⟨h1, h2⟩ := C86_any_tree wild_obtained
  obtain ⟨path, h6, _, h7⟩ := h2 2 (by decide)
  have e : path = [2, 4, 3] := h6.det (.item rfl (.item rfl (.item rfl (.done rfl))))
  obtain ⟨l, n, h3, _, h4⟩ := h1 _ (.inr ⟨4, by decide, .inl rfl⟩)
  refine ⟨?_, ⟨l, n, h3, h4⟩, by rw [show (3 : Nat) = path.length by rw [e]; rfl]; exact h7 99 7⟩
  exact .item (n := 7) rfl (.item (n := 6) rfl (.item (n := 5) rfl (.item (n := 4) rfl
    (.item (n := 3) rfl (.item (n := 1) rfl (.done rfl))))))

end Syntree
