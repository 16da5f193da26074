import Verif.Proof.Outcome

/-!
What stays true of the links of a builder whatever checkpoints it is used with, foreign and
swallowed ones included. `first` and `next` alone form a forest; `own d` is the node below which
`d` hangs in that forest. It is a ghost: the field `parent` may be any of the nodes above.
-/

namespace Syntree

variable {α : Type}

/-- `a` is above `d`. -/
inductive Anc (own : Nat → Option Nat) (a : Nat) : Nat → Prop
  | base {d : Nat} : own d = some a → Anc own a d
  | step {d b : Nat} : own d = some b → Anc own a b → Anc own a d

theorem Anc.trans {own : Nat → Option Nat} {a b d : Nat} (h : Anc own a b) (h' : Anc own b d) :
    Anc own a d := by
  induction h' with
  | base e => exact .step e h
  | step e _ ih => exact .step e ih

/-- Only the owner matters. -/
theorem Anc.congr {own own' : Nat → Option Nat} {a d d' : Nat} (h : Anc own a d)
    (e : own' d' = own d) (hm : ∀ b c, Anc own b c → Anc own' b c) : Anc own' a d' := by
  cases h with
  | base e' => exact .base (e.trans e')
  | step e' h => exact .step (e.trans e') (hm _ _ h)

/-- The invariant of the table of links. -/
structure Own (nodes : List (Links α)) (own : Nat → Option Nat) (rank : Nat → Nat) : Prop where
  dom : ∀ d o, own d = some o → d < nodes.length ∧ rank o < rank d ∧
    ∃ l, nodes[o]? = some l ∧ l.first ≠ none
  par : ∀ (d : Nat) (l : Links α) (q : Nat), nodes[d]? = some l → l.parent = some q → Anc own q d
  next : ∀ (d : Nat) (l : Links α) (m : Nat), nodes[d]? = some l → l.next = some m → d < m ∧
    own m = own d ∧ ∃ lm, nodes[m]? = some lm ∧ lm.prev = some d
  prev : ∀ (d : Nat) (l : Links α) (p : Nat), nodes[d]? = some l → l.prev = some p →
    ∃ lp, nodes[p]? = some lp ∧ lp.next = some d
  first : ∀ (d : Nat) (l : Links α) (f : Nat), nodes[d]? = some l → l.first = some f →
    own f = some d ∧ ∃ lf, nodes[f]? = some lf ∧ lf.parent = some d ∧ lf.prev = none
  last : ∀ (d : Nat) (l : Links α) (e : Nat), nodes[d]? = some l → l.last = some e → Anc own d e

theorem get_lt {β : Type} {l : List β} {i : Nat} {x : β} (h : l[i]? = some x) : i < l.length :=
  (List.getElem?_eq_some_iff.1 h).1

theorem get_of_lt {β : Type} {l : List β} {i : Nat} (h : i < l.length) : ∃ x, l[i]? = some x :=
  ⟨_, List.getElem?_eq_getElem h⟩

theorem Own.anc_lt {nodes : List (Links α)} {own : Nat → Option Nat} {rank : Nat → Nat}
    (h : Own nodes own rank) {a d : Nat} (ha : Anc own a d) :
    d < nodes.length ∧ rank a < rank d ∧ ∃ l, nodes[a]? = some l ∧ l.first ≠ none := by
  induction ha with
  | base e => exact h.dom _ _ e
  | step e _ ih =>
    obtain ⟨h1, h2, _⟩ := h.dom _ _ e
    exact ⟨h1, by omega, ih.2.2⟩

theorem Own.irrefl {nodes : List (Links α)} {own : Nat → Option Nat} {rank : Nat → Nat}
    (h : Own nodes own rank) {a : Nat} : ¬ Anc own a a := fun ha => by
  have := (h.anc_lt ha).2.1; omega

theorem Own.nil : Own ([] : List (Links α)) (fun _ => none) (fun _ => 0) :=
  ⟨by simp, by simp, by simp, by simp, by simp, by simp⟩

/-- Only the structural links matter. -/
theorem Own.same {nodes nodes' : List (Links α)} {own : Nat → Option Nat} {rank : Nat → Nat}
    (h : Own nodes own rank)
    (hlen : nodes'.length = nodes.length)
    (hs : ∀ (i : Nat) (l' : Links α), nodes'[i]? = some l' → ∃ l, nodes[i]? = some l ∧
      l'.parent = l.parent ∧ l'.prev = l.prev ∧ l'.next = l.next ∧ l'.first = l.first ∧
      l'.last = l.last) : Own nodes' own rank := by
  have hs' : ∀ (i : Nat) (l : Links α), nodes[i]? = some l → ∃ l', nodes'[i]? = some l' ∧
      l'.parent = l.parent ∧ l'.prev = l.prev ∧ l'.next = l.next ∧ l'.first = l.first ∧
      l'.last = l.last := by
    intro i l hl
    obtain ⟨l', hl'⟩ := get_of_lt (l := nodes') (i := i) (by rw [hlen]; exact get_lt hl)
    obtain ⟨l2, h1, h2⟩ := hs i l' hl'
    rw [hl] at h1; simp at h1; subst h1
    exact ⟨l', hl', h2⟩
  constructor
  · intro d o hd
    obtain ⟨h1, h2, l, h3, h4⟩ := h.dom d o hd
    obtain ⟨l', e, _, _, _, e4, _⟩ := hs' o l h3
    exact ⟨hlen ▸ h1, h2, l', e, e4 ▸ h4⟩
  · intro d l' q hl hq
    obtain ⟨l, e, e1, e2, e3, e4, e5⟩ := hs d l' hl
    exact h.par d l q e (e1 ▸ hq)
  · intro d l' q hl hq
    obtain ⟨l, e, e1, e2, e3, e4, e5⟩ := hs d l' hl
    obtain ⟨h1, h2, lm, h3, h4⟩ := h.next d l q e (e3 ▸ hq)
    obtain ⟨lm', f, f1, f2, f3, f4, f5⟩ := hs' q lm h3
    exact ⟨h1, h2, lm', f, f2.trans h4⟩
  · intro d l' q hl hq
    obtain ⟨l, e, e1, e2, e3, e4, e5⟩ := hs d l' hl
    obtain ⟨lm, h3, h4⟩ := h.prev d l q e (e2 ▸ hq)
    obtain ⟨lm', f, f1, f2, f3, f4, f5⟩ := hs' q lm h3
    exact ⟨lm', f, f3.trans h4⟩
  · intro d l' q hl hq
    obtain ⟨l, e, e1, e2, e3, e4, e5⟩ := hs d l' hl
    obtain ⟨h1, lm, h3, h4, h5⟩ := h.first d l q e (e4 ▸ hq)
    obtain ⟨lm', f, f1, f2, f3, f4, f5⟩ := hs' q lm h3
    exact ⟨h1, lm', f, f1.trans h4, f2.trans h5⟩
  · intro d l' q hl hq
    obtain ⟨l, e, e1, e2, e3, e4, e5⟩ := hs d l' hl
    exact h.last d l q e (e5 ▸ hq)

theorem Own.modify {nodes : List (Links α)} {own : Nat → Option Nat} {rank : Nat → Nat}
    (h : Own nodes own rank) (i : Nat) (f : Links α → Links α)
    (hf : ∀ l, (f l).parent = l.parent ∧ (f l).prev = l.prev ∧ (f l).next = l.next ∧
      (f l).first = l.first ∧ (f l).last = l.last) : Own (nodes.modify i f) own rank := by
  refine h.same (by simp) ?_
  intro k l' hk
  obtain ⟨l, hl, ⟨rfl, rfl⟩ | ⟨_, rfl⟩⟩ := modify_get hk
  · exact ⟨l, hl, hf l⟩
  · exact ⟨l', hl, rfl, rfl, rfl, rfl, rfl⟩

/-! ## `insert` -/

/-- What `insert` does to an old entry. -/
def insUpd (n : Nat) (par sib : Option Nat) (sp : Span) (i : Nat) (l : Links α) : Links α :=
  let l := if par = some i then Links.addChild n sp l else l
  if sib = some i then { l with next := some n } else l

theorem insUpd_parent (n : Nat) (par sib : Option Nat) (sp : Span) (i : Nat) (l : Links α) :
    (insUpd n par sib sp i l).parent = l.parent := by
  unfold insUpd; split <;> split <;> rfl

theorem insUpd_prev (n : Nat) (par sib : Option Nat) (sp : Span) (i : Nat) (l : Links α) :
    (insUpd n par sib sp i l).prev = l.prev := by
  unfold insUpd; split <;> split <;> rfl

theorem insUpd_next (n : Nat) (par sib : Option Nat) (sp : Span) (i : Nat) (l : Links α) :
    (insUpd n par sib sp i l).next = if sib = some i then some n else l.next := by
  unfold insUpd; split <;> split <;> rfl

theorem insUpd_first (n : Nat) (par sib : Option Nat) (sp : Span) (i : Nat) (l : Links α) :
    (insUpd n par sib sp i l).first =
      if par = some i ∧ l.first = none then some n else l.first := by
  unfold insUpd
  split <;> split <;> simp_all [Links.addChild]

theorem insUpd_last (n : Nat) (par sib : Option Nat) (sp : Span) (i : Nat) (l : Links α) :
    (insUpd n par sib sp i l).last = if par = some i then some n else l.last := by
  unfold insUpd
  split <;> split <;> simp_all [Links.addChild]

/-- The table after `insert`, entry by entry. -/
theorem insert_table {fl : Flavor} {b : Builder α}
    (hc : b.tree.nodes.length < 2 ^ fl.width - 1)
    (hpar : ∀ p, b.parent = some p → p < b.tree.nodes.length)
    (hsib : ∀ p, b.sibling = some p → p < b.tree.nodes.length) (d : α) (sp : Span) (i : Nat) :
    (b.insert fl d sp).1.tree.nodes[i]? =
      if i = b.tree.nodes.length then
        some ⟨d, sp, b.parent, b.sibling, none, none, none⟩
      else b.tree.nodes[i]?.map (insUpd b.tree.nodes.length b.parent b.sibling sp i) := by
  have e0 : ∀ (x : Links α), (b.tree.nodes ++ [x])[i]? =
      if i = b.tree.nodes.length then some x else b.tree.nodes[i]? := by
    intro x
    by_cases hi : i = b.tree.nodes.length
    · subst hi; simp
    · rw [if_neg hi]
      rcases Nat.lt_or_ge i b.tree.nodes.length with h1 | h1
      · rw [List.getElem?_append_left h1]
      · rw [List.getElem?_eq_none (by simp; omega), List.getElem?_eq_none h1]
  unfold Builder.insert
  simp only [Tree.len]
  rw [ptrNew_eq, if_pos hc]
  cases hp : b.parent with
  | none =>
    cases hs : b.sibling with
    | none =>
      simp only [Tree.modifyOpt, Tree.addRoot, Tree.push, e0]
      split
      · rfl
      · cases b.tree.nodes[i]? <;> simp [insUpd]
    | some s =>
      simp only [Tree.modifyOpt, Tree.modifyNode, Tree.addRoot, Tree.push, List.getElem?_modify, e0]
      have := hsib s hs
      by_cases hi : i = b.tree.nodes.length
      · have : ¬ s = i := by omega
        simp [hi]; omega
      · rw [if_neg hi, if_neg hi]
        cases b.tree.nodes[i]? with
        | none => rfl
        | some l =>
          by_cases hpi : s = i
          · subst hpi; simp [insUpd]
          · simp [hpi, insUpd]
  | some p =>
    have hpl := hpar p hp
    cases hs : b.sibling with
    | none =>
      simp only [Tree.modifyOpt, Tree.modifyNode, Tree.push, List.getElem?_modify, e0]
      by_cases hi : i = b.tree.nodes.length
      · simp [hi]; omega
      · rw [if_neg hi, if_neg hi]
        cases b.tree.nodes[i]? with
        | none => rfl
        | some l =>
          by_cases hpi : p = i
          · subst hpi; simp [insUpd]
          · simp [hpi, insUpd]
    | some s =>
      simp only [Tree.modifyOpt, Tree.modifyNode, Tree.push, List.getElem?_modify, e0]
      have := hsib s hs
      by_cases hi : i = b.tree.nodes.length
      · have h1 : ¬ s = b.tree.nodes.length := by omega
        have h2 : ¬ p = b.tree.nodes.length := by omega
        simp [hi, h1, h2]
      · rw [if_neg hi, if_neg hi]
        cases b.tree.nodes[i]? with
        | none => rfl
        | some l =>
          by_cases hpi : p = i
          · by_cases hsi : s = i
            · simp [hpi, hsi, insUpd]
            · simp [hpi, hsi, insUpd]
          · by_cases hsi : s = i
            · simp [hpi, hsi, insUpd]
            · simp [hpi, hsi, insUpd]

/-- The first node of a tree hangs below no other and no node precedes it. -/
def RootOk (nodes : List (Links α)) (own : Nat → Option Nat) (first : Option Nat) : Prop :=
  ∀ f, first = some f → own f = none ∧ ∃ l, nodes[f]? = some l ∧ l.prev = none

theorem RootOk.lt {nodes : List (Links α)} {own : Nat → Option Nat} {first : Option Nat}
    (h : RootOk nodes own first) {f : Nat} (hf : first = some f) : f < nodes.length := by
  obtain ⟨_, l, h1, _⟩ := h f hf
  exact get_lt h1

/-- The invariant of a builder; `st` are its open nodes. -/
structure OwnB (b : Builder α) (st : List Nat) (own : Nat → Option Nat) (rank : Nat → Nat) :
    Prop where
  tab : Own b.tree.nodes own rank
  sib : ∀ s, b.sibling = some s → (∃ l, b.tree.nodes[s]? = some l ∧ l.next = none) ∧
    ∀ q, b.parent = some q → Anc own q s
  opn : ∀ o ∈ st, ∃ l, b.tree.nodes[o]? = some l ∧ l.next = none
  desc : ∀ o ∈ st, ∀ j, o < j → j < b.tree.nodes.length → Anc own o j
  root : RootOk b.tree.nodes own b.tree.first
  full : b.tree.first = none → b.tree.nodes = []

theorem OwnB.init : OwnB (Builder.new : Builder α) [] (fun _ => none) (fun _ => 0) :=
  ⟨Own.nil, by simp [Builder.new], by simp, by simp, by simp [RootOk, Builder.new, Tree.empty], fun _ => rfl⟩

/-- The owner of a new node. -/
def insOwner (b : Builder α) (own : Nat → Option Nat) : Option Nat :=
  match b.sibling with
  | some s => own s
  | none => b.parent

def insOwn (b : Builder α) (own : Nat → Option Nat) (i : Nat) : Option Nat :=
  if i = b.tree.nodes.length then insOwner b own else own i

def insRank (b : Builder α) (own : Nat → Option Nat) (rank : Nat → Nat) (i : Nat) : Nat :=
  if i = b.tree.nodes.length then
    match insOwner b own with
    | some o => rank o + 1
    | none => 0
  else rank i

theorem addRoot_first (t : Tree α) (n : Nat) : (t.addRoot n).first = some (t.first.getD n) := by
  unfold Tree.addRoot
  cases hf : t.first <;> simp [hf]

theorem insert_first {fl : Flavor} {b : Builder α} (hc : b.tree.nodes.length < 2 ^ fl.width - 1)
    (d : α) (sp : Span) : (b.insert fl d sp).1.tree.first =
      if b.parent = none then some (b.tree.first.getD b.tree.nodes.length) else b.tree.first := by
  unfold Builder.insert
  simp only [Tree.len]
  rw [ptrNew_eq, if_pos hc]
  cases b.parent with
  | none =>
    cases b.sibling <;> simp only [if_true] <;> exact addRoot_first _ _
  | some p =>
    cases b.sibling <;> simp [Tree.modifyOpt, Tree.modifyNode, Tree.push]

theorem OwnB.insert {fl : Flavor} {b : Builder α} {st : List Nat} {own : Nat → Option Nat}
    {rank : Nat → Nat} (hw : WFB fl b st) (h : OwnB b st own rank)
    (hc : b.tree.nodes.length < 2 ^ fl.width - 1) (d : α) (sp : Span) :
    OwnB (b.insert fl d sp).1 st (insOwn b own) (insRank b own rank) ∧
    (∃ l, (b.insert fl d sp).1.tree.nodes[b.tree.nodes.length]? = some l ∧ l.next = none) ∧
    (∀ q, b.parent = some q → Anc (insOwn b own) q b.tree.nodes.length) := by
  obtain ⟨b', eb, elen, epar, esib, _, _, _, _, _, _⟩ := hw.insert hc d sp
  have hget := insert_table hc (fun p hp => hw.parent_lt hp) hw.sib d sp
  have hfirst := insert_first hc d sp
  rw [eb] at hget hfirst ⊢
  simp only at hget hfirst ⊢
  generalize hn : b.tree.nodes.length = n at *
  -- the two directions of the table
  have hnew : b'.tree.nodes[n]? = some ⟨d, sp, b.parent, b.sibling, none, none, none⟩ := by
    rw [hget, if_pos rfl]
  have hold : ∀ i l, b.tree.nodes[i]? = some l →
      b'.tree.nodes[i]? = some (insUpd n b.parent b.sibling sp i l) := by
    intro i l hl
    have := get_lt hl
    rw [hget, if_neg (by omega), hl]; rfl
  have hinv : ∀ i l', b'.tree.nodes[i]? = some l' →
      (i = n ∧ l' = ⟨d, sp, b.parent, b.sibling, none, none, none⟩) ∨
      ∃ l, b.tree.nodes[i]? = some l ∧ i < n ∧ l' = insUpd n b.parent b.sibling sp i l := by
    intro i l' hl'
    rw [hget] at hl'
    split at hl'
    · rename_i hi; simp at hl'; exact .inl ⟨hi, hl'.symm⟩
    · cases hl : b.tree.nodes[i]? with
      | none => rw [hl] at hl'; simp at hl'
      | some l =>
        rw [hl] at hl'; simp at hl'
        exact .inr ⟨l, rfl, hn ▸ get_lt hl, hl'.symm⟩
  have oldOwn : ∀ i, i ≠ n → insOwn b own i = own i := by
    intro i hi; unfold insOwn; rw [hn, if_neg hi]
  have newOwn : insOwn b own n = insOwner b own := by unfold insOwn; rw [hn, if_pos rfl]
  have oldRank : ∀ i, i ≠ n → insRank b own rank i = rank i := by
    intro i hi; unfold insRank; rw [hn, if_neg hi]
  have lift : ∀ a c, Anc own a c → Anc (insOwn b own) a c := by
    intro a c ha
    induction ha with
    | base e =>
      have := (h.tab.dom _ _ e).1
      exact .base ((oldOwn _ (by omega)).trans e)
    | step e _ ih =>
      have := (h.tab.dom _ _ e).1
      exact .step ((oldOwn _ (by omega)).trans e) ih
  -- the parent is above the new node
  have habove : ∀ q, b.parent = some q → Anc (insOwn b own) q n := by
    intro q hq
    cases hs : b.sibling with
    | none => exact .base (by rw [newOwn, insOwner, hs]; exact hq)
    | some s =>
      have := (h.sib s hs).2 q hq
      exact this.congr (by rw [newOwn, insOwner, hs]) lift
  -- the owner of the new node has children in the end
  have hown : ∀ o, insOwner b own = some o → o < n ∧
      ∃ l', b'.tree.nodes[o]? = some l' ∧ l'.first ≠ none := by
    intro o ho
    unfold insOwner at ho
    cases hs : b.sibling with
    | none =>
      rw [hs] at ho
      have := hw.parent_lt ho
      obtain ⟨l, hl⟩ := get_of_lt this
      refine ⟨by omega, _, hold o l hl, ?_⟩
      rw [insUpd_first]
      simp only at ho
      rw [ho]; simp only [true_and]
      split
      · simp
      · assumption
    | some s =>
      rw [hs] at ho
      obtain ⟨_, _, l, hl, hf⟩ := h.tab.dom s o ho
      refine ⟨hn ▸ get_lt hl, _, hold o l hl, ?_⟩
      rw [insUpd_first]
      split
      · simp
      · exact hf
  refine ⟨⟨⟨?_, ?_, ?_, ?_, ?_, ?_⟩, ?_, ?_, ?_, ?_, ?_⟩, ⟨_, hnew, rfl⟩, habove⟩
  · -- dom
    intro i o hi
    rw [elen]
    by_cases hin : i = n
    · subst hin
      rw [newOwn] at hi
      obtain ⟨h1, h2⟩ := hown o hi
      refine ⟨by omega, ?_, h2⟩
      rw [oldRank o (by omega)]
      unfold insRank
      rw [hn, if_pos rfl, hi]; simp
    · rw [oldOwn i hin] at hi
      obtain ⟨h1, h2, l, h3, h4⟩ := h.tab.dom i o hi
      have := get_lt h3
      refine ⟨by omega, by rw [oldRank o (by omega), oldRank i hin]; exact h2, _, hold o l h3, ?_⟩
      rw [insUpd_first]
      split
      · simp
      · exact h4
  · -- par
    intro i l' q hl' hq
    rcases hinv i l' hl' with ⟨rfl, rfl⟩ | ⟨l, hl, hlt, rfl⟩
    · exact habove q hq
    · rw [insUpd_parent] at hq
      exact lift _ _ (h.tab.par i l q hl hq)
  · -- next
    intro i l' m hl' hm
    rcases hinv i l' hl' with ⟨rfl, rfl⟩ | ⟨l, hl, hlt, rfl⟩
    · simp at hm
    · rw [insUpd_next] at hm
      split at hm
      · rename_i hs
        simp at hm; subst hm
        exact ⟨hlt, by rw [newOwn, insOwner, hs, oldOwn i (by omega)], _, hnew, hs⟩
      · obtain ⟨h1, h2, lm, h3, h4⟩ := h.tab.next i l m hl hm
        have := get_lt h3
        refine ⟨h1, by rw [oldOwn m (by omega), oldOwn i (by omega)]; exact h2, _, hold m lm h3, ?_⟩
        rw [insUpd_prev]; exact h4
  · -- prev
    intro i l' p hl' hp
    rcases hinv i l' hl' with ⟨rfl, rfl⟩ | ⟨l, hl, hlt, rfl⟩
    · obtain ⟨⟨ls, h1, h2⟩, _⟩ := h.sib p hp
      refine ⟨_, hold p ls h1, ?_⟩
      rw [insUpd_next, if_pos hp]
    · rw [insUpd_prev] at hp
      obtain ⟨lp, h1, h2⟩ := h.tab.prev i l p hl hp
      refine ⟨_, hold p lp h1, ?_⟩
      rw [insUpd_next, if_neg]
      · exact h2
      · intro hs
        obtain ⟨⟨ls, h3, h4⟩, _⟩ := h.sib p hs
        rw [h1] at h3; simp at h3; subst h3
        rw [h4] at h2; simp at h2
  · -- first
    intro i l' f hl' hf
    rcases hinv i l' hl' with ⟨rfl, rfl⟩ | ⟨l, hl, hlt, rfl⟩
    · simp at hf
    · rw [insUpd_first] at hf
      split at hf
      · rename_i hc
        simp at hf; subst hf
        have hs : b.sibling = none := by
          cases hs : b.sibling with
          | none => rfl
          | some s =>
            have := (h.tab.anc_lt ((h.sib s hs).2 i hc.1)).2.2
            obtain ⟨l2, h1, h2⟩ := this
            rw [hl] at h1; simp at h1; subst h1
            exact absurd hc.2 h2
        refine ⟨by rw [newOwn, insOwner, hs]; exact hc.1, _, hnew, hc.1, hs⟩
      · obtain ⟨h1, lf, h2, h3, h4⟩ := h.tab.first i l f hl hf
        have := get_lt h2
        refine ⟨by rw [oldOwn f (by omega)]; exact h1, _, hold f lf h2, ?_, ?_⟩
        · rw [insUpd_parent]; exact h3
        · rw [insUpd_prev]; exact h4
  · -- last
    intro i l' e hl' he
    rcases hinv i l' hl' with ⟨rfl, rfl⟩ | ⟨l, hl, hlt, rfl⟩
    · simp at he
    · rw [insUpd_last] at he
      split at he
      · rename_i hp
        simp at he; subst he
        exact habove i hp
      · exact lift _ _ (h.tab.last i l e hl he)
  · intro s hs; rw [esib] at hs; simp at hs
  · intro o ho
    obtain ⟨l, hl, hnx⟩ := h.opn o ho
    refine ⟨_, hold o l hl, ?_⟩
    rw [insUpd_next, if_neg]
    · exact hnx
    · intro hs
      have hol := hw.chain.lt ho
      -- the sibling is below the innermost open node, hence not an open node
      have hne : st ≠ [] := by intro e; rw [e] at ho; simp at ho
      obtain ⟨p, st', rfl⟩ : ∃ p st', st = p :: st' := by
        cases st with
        | nil => exact absurd rfl hne
        | cons p st' => exact ⟨p, st', rfl⟩
      have hp : b.parent = some p := hw.top
      have hpo := (h.sib o hs).2 p hp
      rcases List.mem_cons.1 ho with rfl | ho'
      · exact h.tab.irrefl hpo
      · have hlt := hw.chain.2.1 o ho'
        have hpl := hw.parent_lt hp
        exact h.tab.irrefl ((h.desc o ho p hlt hpl).trans hpo)
  · intro o ho j hoj hj
    rw [elen] at hj
    by_cases hjn : j = n
    · subst hjn
      obtain ⟨p, st', rfl⟩ : ∃ p st', st = p :: st' := by
        cases st with
        | nil => simp at ho
        | cons p st' => exact ⟨p, st', rfl⟩
      have hp : b.parent = some p := hw.top
      rcases List.mem_cons.1 ho with rfl | ho'
      · exact habove _ hp
      · have hlt := hw.chain.2.1 o ho'
        have hpl := hw.parent_lt hp
        exact (lift _ _ (h.desc o ho p hlt hpl)).trans (habove _ hp)
    · exact lift _ _ (h.desc o ho j hoj (by omega))
  · intro f hf
    have hwas : b.tree.first = some f ∨ (b.tree.first = none ∧ b.parent = none ∧ f = n) := by
      rw [hfirst] at hf
      split at hf
      · rename_i hp
        cases hx : b.tree.first with
        | none => rw [hx] at hf; simp at hf; exact .inr ⟨rfl, hp, hf.symm⟩
        | some g => rw [hx] at hf; simp at hf; exact .inl (by rw [hf])
      · exact .inl hf
    rcases hwas with h1 | ⟨h1, h2, rfl⟩
    · obtain ⟨h2, l, h3, h4⟩ := h.root f h1
      have := get_lt h3
      exact ⟨by rw [oldOwn f (by omega)]; exact h2, _, hold f l h3, by rw [insUpd_prev]; exact h4⟩
    · have hnil := h.full h1
      have hs : b.sibling = none := by
        cases hs : b.sibling with
        | none => rfl
        | some s => have := hw.sib s hs; rw [hnil] at this; simp at this
      exact ⟨by rw [newOwn, insOwner, hs]; exact h2, _, hnew, hs⟩
  · intro hf
    rw [hfirst] at hf
    split at hf
    · simp at hf
    · rename_i hp
      have hnil := h.full hf
      cases hq : b.parent with
      | none => exact absurd hq hp
      | some q => have := hw.parent_lt hq; rw [hnil] at this; simp at this

end Syntree
