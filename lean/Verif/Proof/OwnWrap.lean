import Verif.Proof.Own

/-! `close_at` with any checkpoint keeps the invariant of `Own`. -/

namespace Syntree

variable {α : Type}

/-- The chain of following siblings of `i`, as stored. -/
inductive NChain (nodes : List (Links α)) : Nat → List Nat → Prop
  | last {i : Nat} {l : Links α} : nodes[i]? = some l → l.next = none → NChain nodes i [i]
  | cons {i j : Nat} {l : Links α} {C : List Nat} : nodes[i]? = some l → l.next = some j →
      NChain nodes j C → NChain nodes i (i :: C)

/-- Set the parent of the entries in `C`. -/
def setPar (pid : Nat) (C : List Nat) (i : Nat) (l : Links α) : Links α :=
  if i ∈ C then { l with parent := some pid } else l

theorem NChain.transport {nodes nodes' : List (Links α)} {i : Nat} {C : List Nat}
    (h : NChain nodes i C)
    (hn : ∀ (i : Nat) (l : Links α), nodes[i]? = some l → ∃ l', nodes'[i]? = some l' ∧
      l'.next = l.next) :
    NChain nodes' i C := by
  induction h with
  | last hl hx =>
    obtain ⟨l', h1, h2⟩ := hn _ _ hl
    exact .last h1 (h2.trans hx)
  | cons hl hx _ ih =>
    obtain ⟨l', h1, h2⟩ := hn _ _ hl
    exact .cons h1 (h2.trans hx) ih

theorem NChain.head_mem {nodes : List (Links α)} {i : Nat} {C : List Nat} (h : NChain nodes i C) :
    i ∈ C := by cases h <;> simp

theorem restructure_chain (pid fuel : Nat) (nodes : List (Links α)) (cur : Nat) (hn : NextOk nodes)
    (hc : cur < nodes.length) (hf : nodes.length - cur ≤ fuel) :
    ∃ nodes' last stop C, restructure pid fuel nodes cur = (nodes', .ok (last, stop)) ∧
      NChain nodes cur C ∧ last ∈ C ∧
      ∀ i, nodes'[i]? = nodes[i]?.map (setPar pid C i) := by
  induction fuel generalizing nodes cur with
  | zero => omega
  | succ fuel ih =>
    unfold restructure
    obtain ⟨lc, hl⟩ : ∃ lc, nodes[cur]? = some lc := ⟨_, List.getElem?_eq_getElem hc⟩
    rw [hl]
    simp only
    have hset : ∀ i, (nodes.set cur { lc with parent := some pid })[i]? =
        nodes[i]?.map (setPar pid [cur] i) := by
      intro i
      rw [List.getElem?_set]
      by_cases hi : cur = i
      · subst hi; rw [hl]; simp [hc, setPar]
      · rw [if_neg hi]
        cases nodes[i]? with
        | none => rfl
        | some l =>
          have hi' : ¬ i = cur := fun e => hi e.symm
          simp [setPar, hi']
    cases hx : lc.next with
    | none =>
      simp only
      refine ⟨_, _, _, [cur], rfl, .last hl hx, by simp, ?_⟩
      intro i; rw [← hset i, hx]
    | some j =>
      simp only
      have hj := hn cur _ j hl hx
      have hm : Moved pid cur nodes (nodes.set cur { lc with parent := some pid }) :=
        Moved.set hl rfl rfl
      obtain ⟨nodes', last, stop, C, e, hC, hlast, ht⟩ := ih _ j (hm.nextOk hn)
        (by simpa using hj.2) (by simp; omega)
      rw [hx] at e
      refine ⟨nodes', last, stop, cur :: C, e, .cons hl hx (hC.transport ?_), by simp [hlast], ?_⟩
      · intro i l hl
        obtain ⟨l2, h1, h2, _⟩ := hm.get i l hl
        exact ⟨l2, h1, h2.symm⟩
      · intro i
        rw [ht, hset, Option.map_map]
        congr 1
        funext l
        simp only [Function.comp_apply, setPar, List.mem_cons, List.not_mem_nil, or_false]
        by_cases h1 : i ∈ C <;> by_cases h2 : i = cur <;> simp [h1, h2]

/-- What re-parenting does to an entry. -/
def wrapPar (pid id : Nat) (C : List Nat) (i : Nat) (l : Links α) : Links α :=
  let l := setPar pid C i l
  if i = id then { l with prev := none } else l

theorem reparent_chain {nodes : List (Links α)} (newId id : Nat) {links : Links α}
    (hn : NextOk nodes) (hl : nodes[id]? = some links) :
    ∃ nodes' last span C, reparent newId id links nodes = (nodes', .ok (last, span)) ∧
      NChain nodes id C ∧ last ∈ C ∧ ∀ i, nodes'[i]? = nodes[i]?.map (wrapPar newId id C i) := by
  unfold reparent
  have hset : ∀ i, (nodes.set id { links with parent := some newId, prev := none })[i]? =
      nodes[i]?.map (wrapPar newId id [id] i) := by
    intro i
    rw [List.getElem?_set]
    by_cases hi : id = i
    · subst hi; rw [hl]; simp [get_lt hl, wrapPar, setPar]
    · rw [if_neg hi]
      cases nodes[i]? with
      | none => rfl
      | some l =>
        have hi' : ¬ i = id := fun e => hi e.symm
        simp [wrapPar, setPar, hi']
  have hm : Moved newId id nodes
      (nodes.set id { links with parent := some newId, prev := none }) := Moved.set hl rfl rfl
  cases hx : links.next with
  | none =>
    simp only
    refine ⟨_, _, _, [id], rfl, .last hl hx, by simp, ?_⟩
    intro i; rw [← hset i, hx]
  | some j =>
    simp only
    have hj := hn id _ j hl hx
    obtain ⟨nodes', last, stop, C, e, hC, hlast, ht⟩ := restructure_chain newId (nodes.length + 1) _ j
      (hm.nextOk hn) (by simpa using hj.2) (by simp; omega)
    simp only [List.length_set]
    rw [hx] at e
    rw [e]
    refine ⟨_, _, _, id :: C, rfl, .cons hl hx (hC.transport ?_), by simp [hlast], ?_⟩
    · intro i l hl
      obtain ⟨l2, h1, h2, _⟩ := hm.get i l hl
      exact ⟨l2, h1, h2.symm⟩
    · intro i
      rw [ht, hset, Option.map_map]
      congr 1
      funext l
      simp only [Function.comp_apply, wrapPar, setPar, List.mem_cons, List.not_mem_nil, or_false]
      by_cases h1 : i ∈ C <;> by_cases h2 : i = id <;> simp [h1, h2]

/-- What `close_at` does to an old entry. -/
def wrapUpd (n id : Nat) (par prev : Option Nat) (C : List Nat) (i : Nat) (l : Links α) :
    Links α :=
  { data := l.data, span := l.span
    parent := if i ∈ C then some n else l.parent
    prev := if i = id then none else l.prev
    next := if prev = some i then some n else l.next
    first := if par = some i ∧ l.first = some id then some n else l.first
    last := if par = some i ∧ l.last = some id then some n else l.last }

theorem relink_table {t : Tree α} {nodes nodes' : List (Links α)} {id : Nat} {C : List Nat}
    (ht : t.nodes = nodes') (he : ∀ i, nodes'[i]? = nodes[i]?.map (wrapPar nodes.length id C i))
    (par prev : Option Nat) (new : Links α) (i : Nat) :
    (t.relink id nodes.length par prev new).nodes[i]? =
      if i = nodes.length then some new
      else nodes[i]?.map (wrapUpd nodes.length id par prev C i) := by
  have hlen : nodes'.length = nodes.length := by
    rcases Nat.lt_trichotomy nodes'.length nodes.length with h | h | h
    · have := he nodes'.length
      rw [List.getElem?_eq_none (Nat.le_refl _), List.getElem?_eq_getElem h] at this
      simp at this
    · exact h
    · have := he nodes.length
      rw [List.getElem?_eq_none (l := nodes) (Nat.le_refl _), List.getElem?_eq_getElem h] at this
      simp at this
  unfold Tree.relink
  simp only [Tree.push]
  have hmid : ∀ i, ((t.modifyOpt par (fun p =>
      { p with
        first := if p.first = some id then some nodes.length else p.first
        last := if p.last = some id then some nodes.length else p.last })).modifyOpt prev
        (fun p => { p with next := some nodes.length })).nodes[i]? =
      nodes[i]?.map (wrapUpd nodes.length id par prev C i) := by
    intro i
    cases par with
    | none =>
      cases prev with
      | none =>
        simp only [Tree.modifyOpt, ht, he]
        cases nodes[i]? with
        | none => rfl
        | some l =>
          simp only [Option.map_some, wrapPar, setPar, wrapUpd]
          by_cases h2 : i = id
          · subst h2; by_cases h1 : i ∈ C <;> simp [h1]
          · by_cases h1 : i ∈ C <;> simp [h1, h2]
      | some p =>
        simp only [Tree.modifyOpt, Tree.modifyNode, ht, List.getElem?_modify, he]
        cases nodes[i]? with
        | none => rfl
        | some l =>
          simp only [Option.map_some, Option.map_eq_map, wrapPar, setPar, wrapUpd]
          by_cases h2 : i = id
          · subst h2
            by_cases h1 : i ∈ C <;> by_cases h3 : p = i <;> simp [h1, h3]
          · by_cases h1 : i ∈ C <;> by_cases h3 : p = i <;> simp [h1, h2, h3]
    | some q =>
      cases prev with
      | none =>
        simp only [Tree.modifyOpt, Tree.modifyNode, ht, List.getElem?_modify, he]
        cases nodes[i]? with
        | none => rfl
        | some l =>
          simp only [Option.map_some, Option.map_eq_map, wrapPar, setPar, wrapUpd]
          by_cases h2 : i = id
          · subst h2
            by_cases h1 : i ∈ C <;> by_cases h3 : q = i <;> simp [h1, h3]
          · by_cases h1 : i ∈ C <;> by_cases h3 : q = i <;> simp [h1, h2, h3]
      | some p =>
        simp only [Tree.modifyOpt, Tree.modifyNode, ht, List.getElem?_modify, he]
        cases nodes[i]? with
        | none => rfl
        | some l =>
          simp only [Option.map_some, Option.map_eq_map, wrapPar, setPar, wrapUpd]
          by_cases h2 : i = id
          · subst h2
            by_cases h1 : i ∈ C <;> by_cases h3 : q = i <;> by_cases h4 : p = i <;>
              simp [h1, h3, h4]
          · by_cases h1 : i ∈ C <;> by_cases h3 : q = i <;> by_cases h4 : p = i <;>
              simp [h1, h2, h3, h4]
  have hml : ((t.modifyOpt par (fun p =>
      { p with
        first := if p.first = some id then some nodes.length else p.first
        last := if p.last = some id then some nodes.length else p.last })).modifyOpt prev
        (fun p => { p with next := some nodes.length })).nodes.length = nodes.length := by
    rw [← hlen, ← ht]
    cases par <;> cases prev <;> simp [Tree.modifyOpt, Tree.modifyNode]
  by_cases hi : i = nodes.length
  · rw [if_pos hi, List.getElem?_append_right (by omega)]
    simp [hi, hml]
  · rw [if_neg hi, ← hmid i]
    rcases Nat.lt_or_ge i nodes.length with h1 | h1
    · rw [List.getElem?_append_left (by omega)]
    · rw [List.getElem?_eq_none (by simp; omega), List.getElem?_eq_none (by omega)]

theorem NChain.props {nodes : List (Links α)} {own : Nat → Option Nat} {rank : Nat → Nat}
    (h : Own nodes own rank) {i : Nat} {C : List Nat} (hC : NChain nodes i C) :
    ∀ j ∈ C, i ≤ j ∧ own j = own i ∧
      (∃ l, nodes[j]? = some l ∧ (∀ m, l.next = some m → m ∈ C) ∧
        (j ≠ i → ∃ p ∈ C, l.prev = some p)) := by
  induction hC with
  | @last i l hl hx =>
    intro j hj
    simp at hj; subst hj
    exact ⟨Nat.le_refl _, rfl, l, hl, by simp [hx], by simp⟩
  | @cons i j l C hl hx hC ih =>
    obtain ⟨h1, h2, lj, h3, h4⟩ := h.next i l j hl hx
    intro k hk
    rcases List.mem_cons.1 hk with rfl | hk
    · refine ⟨Nat.le_refl _, rfl, l, hl, ?_, by simp⟩
      intro m hm
      rw [hx] at hm; simp at hm; subst hm
      exact List.mem_cons_of_mem _ hC.head_mem
    · obtain ⟨g1, g2, lk, g3, g4, g5⟩ := ih k hk
      refine ⟨by omega, g2.trans h2, lk, g3, fun m hm => List.mem_cons_of_mem _ (g4 m hm), ?_⟩
      intro _
      by_cases hkj : k = j
      · subst hkj
        rw [h3] at g3; simp at g3; subst g3
        exact ⟨i, by simp, h4⟩
      · obtain ⟨p, hp, e⟩ := g5 hkj
        exact ⟨p, List.mem_cons_of_mem _ hp, e⟩

def wrapOwn (n id : Nat) (C : List Nat) (own : Nat → Option Nat) (i : Nat) : Option Nat :=
  if i = n then own id else if i ∈ C then some n else own i

def wrapRank (n id : Nat) (own : Nat → Option Nat) (rank : Nat → Nat) (i : Nat) : Nat :=
  if i = n then
    match own id with
    | some o => 2 * rank o + 3
    | none => 1
  else 2 * rank i + 2

theorem Own.wrap {nodes nodes' : List (Links α)} {own : Nat → Option Nat} {rank : Nat → Nat}
    (h : Own nodes own rank) {id : Nat} {links : Links α} (hl : nodes[id]? = some links)
    {C : List Nat} (hC : NChain nodes id C) {last : Nat} (hlast : last ∈ C) (d : α) (sp : Span)
    (ht : ∀ i, nodes'[i]? = if i = nodes.length then
        some ⟨d, sp, links.parent, links.prev, none, some id, some last⟩
      else nodes[i]?.map (wrapUpd nodes.length id links.parent links.prev C i)) :
    Own nodes' (wrapOwn nodes.length id C own) (wrapRank nodes.length id own rank) ∧
    (∀ a c, Anc own a c → Anc (wrapOwn nodes.length id C own) a c) ∧
    (∀ a, Anc own a id → Anc (wrapOwn nodes.length id C own) a nodes.length) := by
  have hP := hC.props h
  have hid := get_lt hl
  have hidC := hC.head_mem
  generalize hn : nodes.length = n at *
  have hlenge : n < nodes'.length := by
    have := ht n; rw [if_pos rfl] at this; exact get_lt this
  have hCn : ∀ j ∈ C, j ≠ n := by
    intro j hj
    obtain ⟨_, _, l, h1, _⟩ := hP j hj
    have := get_lt h1; omega
  have hnew : nodes'[n]? = some ⟨d, sp, links.parent, links.prev, none, some id, some last⟩ := by
    rw [ht, if_pos rfl]
  have hold : ∀ i l, nodes[i]? = some l →
      nodes'[i]? = some (wrapUpd n id links.parent links.prev C i l) := by
    intro i l hl
    have := get_lt hl
    rw [ht, if_neg (by omega), hl]; rfl
  have hinv : ∀ i l', nodes'[i]? = some l' →
      (i = n ∧ l' = ⟨d, sp, links.parent, links.prev, none, some id, some last⟩) ∨
      ∃ l, nodes[i]? = some l ∧ i < n ∧ l' = wrapUpd n id links.parent links.prev C i l := by
    intro i l' hl'
    rw [ht] at hl'
    split at hl'
    · rename_i hi; simp at hl'; exact .inl ⟨hi, hl'.symm⟩
    · cases hl : nodes[i]? with
      | none => rw [hl] at hl'; simp at hl'
      | some l =>
        rw [hl] at hl'; simp at hl'
        exact .inr ⟨l, rfl, hn ▸ get_lt hl, hl'.symm⟩
  have oN : wrapOwn n id C own n = own id := by simp [wrapOwn]
  have oC : ∀ j ∈ C, wrapOwn n id C own j = some n := by
    intro j hj; simp [wrapOwn, hCn j hj, hj]
  have oO : ∀ j, j ≠ n → j ∉ C → wrapOwn n id C own j = own j := by
    intro j h1 h2; simp [wrapOwn, h1, h2]
  have rO : ∀ j, j ≠ n → wrapRank n id own rank j = 2 * rank j + 2 := by
    intro j h1; simp [wrapRank, h1]
  have lift : ∀ a c, Anc own a c → Anc (wrapOwn n id C own) a c := by
    intro a c ha
    induction ha with
    | @base c e =>
      have := (h.dom _ _ e).1
      by_cases hc : c ∈ C
      · exact .step (oC c hc) (.base (by rw [oN, ← (hP c hc).2.1]; exact e))
      · exact .base ((oO c (by omega) hc).trans e)
    | @step c b e _ ih =>
      have := (h.dom _ _ e).1
      by_cases hc : c ∈ C
      · exact .step (oC c hc) (.step (by rw [oN, ← (hP c hc).2.1]; exact e) ih)
      · exact .step ((oO c (by omega) hc).trans e) ih
  have liftN : ∀ a, Anc own a id → Anc (wrapOwn n id C own) a n :=
    fun a ha => ha.congr oN lift
  -- the entry before the first wrapped one
  have hprev : ∀ p, links.prev = some p → p < id ∧ own id = own p ∧ p ∉ C ∧
      ∃ lp, nodes[p]? = some lp ∧ lp.next = some id := by
    intro p hp
    obtain ⟨lp, h1, h2⟩ := h.prev id links p hl hp
    obtain ⟨h3, h4, _⟩ := h.next p lp id h1 h2
    refine ⟨h3, h4, ?_, lp, h1, h2⟩
    intro hpC
    have := (hP p hpC).1; omega
  refine ⟨⟨?_, ?_, ?_, ?_, ?_, ?_⟩, lift, liftN⟩
  · -- dom
    intro i o hi
    have hf : ∀ (o : Nat) (l : Links α), nodes[o]? = some l → l.first ≠ none →
        ∃ l' : Links α, nodes'[o]? = some l' ∧ l'.first ≠ none := by
      intro o l h1 h2
      refine ⟨_, hold o l h1, ?_⟩
      simp only [wrapUpd]
      split
      · simp
      · exact h2
    by_cases hin : i = n
    · subst hin
      rw [oN] at hi
      obtain ⟨h1, h2, l, h3, h4⟩ := h.dom id o hi
      have := get_lt h3
      refine ⟨hlenge, ?_, hf o l h3 h4⟩
      rw [rO o (by omega)]
      simp [wrapRank, hi]
    · by_cases hiC : i ∈ C
      · rw [oC i hiC] at hi
        simp at hi; subst hi
        obtain ⟨_, h2, l, h3, _⟩ := hP i hiC
        refine ⟨by have := get_lt h3; omega, ?_, _, hnew, by simp⟩
        rw [rO i hin]
        cases ho : own id with
        | none => simp [wrapRank, ho]
        | some o =>
          have := (h.dom i o (h2.trans ho)).2.1
          simp [wrapRank, ho]; omega
      · rw [oO i hin hiC] at hi
        obtain ⟨h1, h2, l, h3, h4⟩ := h.dom i o hi
        have := get_lt h3
        refine ⟨by omega, ?_, hf o l h3 h4⟩
        rw [rO o (by omega), rO i hin]; omega
  · -- par
    intro i l' q hl' hq
    rcases hinv i l' hl' with ⟨rfl, rfl⟩ | ⟨l, hil, hlt, rfl⟩
    · exact liftN q (h.par id links q hl hq)
    · simp only [wrapUpd] at hq
      split at hq
      · rename_i hiC
        simp at hq; subst hq
        exact .base (oC i hiC)
      · exact lift _ _ (h.par i l q hil hq)
  · -- next
    intro i l' m hl' hm
    rcases hinv i l' hl' with ⟨rfl, rfl⟩ | ⟨l, hil, hlt, rfl⟩
    · simp at hm
    · simp only [wrapUpd] at hm
      split at hm
      · rename_i hp
        simp at hm; subst hm
        obtain ⟨h1, h2, h3, _⟩ := hprev i hp
        exact ⟨hlt, by rw [oN, oO i (by omega) h3]; exact h2, _, hnew, hp⟩
      · rename_i hp
        obtain ⟨h1, h2, lm, h3, h4⟩ := h.next i l m hil hm
        have hml := get_lt h3
        have hmid : m ≠ id := by
          rintro rfl
          rw [hl] at h3; simp at h3; subst h3
          exact hp h4
        refine ⟨h1, ?_, _, hold m lm h3, by simp only [wrapUpd]; rw [if_neg hmid]; exact h4⟩
        by_cases hiC : i ∈ C
        · obtain ⟨_, _, l2, g1, g2, _⟩ := hP i hiC
          rw [hil] at g1; simp at g1; subst g1
          rw [oC i hiC, oC m (g2 m hm)]
        · have hmC : m ∉ C := by
            intro hmC
            obtain ⟨_, _, l2, g1, _, g3⟩ := hP m hmC
            rw [h3] at g1; simp at g1; subst g1
            obtain ⟨p, hp, e⟩ := g3 hmid
            rw [h4] at e; simp at e; subst e
            exact hiC hp
          rw [oO m (by omega) hmC, oO i (by omega) hiC]; exact h2
  · -- prev
    intro i l' p hl' hp
    rcases hinv i l' hl' with ⟨rfl, rfl⟩ | ⟨l, hil, hlt, rfl⟩
    · obtain ⟨_, _, _, lp, h1, h2⟩ := hprev p hp
      refine ⟨_, hold p lp h1, ?_⟩
      simp only at hp
      simp only [wrapUpd]; rw [if_pos hp]
    · simp only [wrapUpd] at hp
      split at hp
      · simp at hp
      · rename_i hid'
        obtain ⟨lp, h1, h2⟩ := h.prev i l p hil hp
        refine ⟨_, hold p lp h1, ?_⟩
        simp only [wrapUpd]
        rw [if_neg]
        · exact h2
        · intro hpp
          obtain ⟨_, _, _, lp2, g1, g2⟩ := hprev p hpp
          rw [h1] at g1; simp at g1; subst g1
          rw [h2] at g2; simp at g2; exact hid' g2
  · -- first
    intro i l' f hl' hf
    rcases hinv i l' hl' with ⟨rfl, rfl⟩ | ⟨l, hil, hlt, rfl⟩
    · simp at hf; subst hf
      refine ⟨oC _ hidC, _, hold _ links hl, ?_, ?_⟩
      · simp [wrapUpd, hidC]
      · simp [wrapUpd]
    · simp only [wrapUpd] at hf
      split at hf
      · rename_i hc
        simp at hf; subst hf
        obtain ⟨h1, lf, h2, h3, h4⟩ := h.first i l id hil hc.2
        rw [hl] at h2; simp at h2; subst h2
        exact ⟨oN.trans h1, _, hnew, h3, h4⟩
      · rename_i hc
        obtain ⟨h1, lf, h2, h3, h4⟩ := h.first i l f hil hf
        have hfl := get_lt h2
        have hfid : f ≠ id := by
          rintro rfl
          rw [hl] at h2; simp at h2; subst h2
          exact hc ⟨h3, hf⟩
        have hfC : f ∉ C := by
          intro hfC
          obtain ⟨_, _, l2, g1, _, g3⟩ := hP f hfC
          rw [h2] at g1; simp at g1; subst g1
          obtain ⟨p, _, e⟩ := g3 hfid
          rw [h4] at e; simp at e
        refine ⟨(oO f (by omega) hfC).trans h1, _, hold f lf h2, ?_, ?_⟩
        · simp only [wrapUpd]; rw [if_neg hfC]; exact h3
        · simp only [wrapUpd]; rw [if_neg hfid]; exact h4
  · -- last
    intro i l' e hl' he
    rcases hinv i l' hl' with ⟨rfl, rfl⟩ | ⟨l, hil, hlt, rfl⟩
    · simp at he; subst he
      exact .base (oC _ hlast)
    · simp only [wrapUpd] at he
      split at he
      · rename_i hc
        simp at he; subst he
        exact liftN i (h.par id links i hl hc.1)
      · exact lift _ _ (h.last i l e hil he)

theorem relink_first (t : Tree α) (id newId : Nat) (par prev : Option Nat) (new : Links α) :
    (t.relink id newId par prev new).first = if t.first = some id then some newId else t.first := by
  unfold Tree.relink
  cases par <;> cases prev <;> rfl

/-- `close_at` with any checkpoint. -/
theorem OwnB.closeAt {fl : Flavor} {b : Builder α} {st : List Nat} {own : Nat → Option Nat}
    {rank : Nat → Nat} (hw : WFB fl b st) (h : OwnB b st own rank) {cells : Cells}
    (hcell : CellsOk cells) (c : Nat) (d : α) (explicit : Option Span) :
    ∃ own' rank', OwnB (b.closeAtCore fl cells c d explicit).2.1 st own' rank' := by
  unfold Builder.closeAtCore
  cases hc : cells[c]? with
  | none => exact ⟨own, rank, h⟩
  | some cell =>
    simp only
    by_cases hp : cell.parent = b.parent
    rotate_left
    · rw [if_pos hp]; exact ⟨own, rank, h⟩
    rw [if_neg (by simpa using hp), ptrNew_eq]
    by_cases hroom : b.tree.len < 2 ^ fl.width - 1
    rotate_left
    · rw [if_neg hroom]; exact ⟨own, rank, h⟩
    rw [if_pos hroom]
    simp only
    cases hl : b.tree.nodes[cell.node]? with
    | none =>
      simp only
      obtain ⟨b', e, e1, e2, e3, _⟩ := hw.insert hroom d (explicit.getD (Span.point b.cursor))
      obtain ⟨h1, h2, h3⟩ := h.insert hw hroom d (explicit.getD (Span.point b.cursor))
      rw [e] at h1 h2 ⊢
      simp only at h1 h2 ⊢
      split
      · exact ⟨_, _, h1⟩
      · refine ⟨_, _, h1.tab, ?_, h1.opn, h1.desc, h1.root, h1.full⟩
        intro s hs
        simp at hs; subst hs
        exact ⟨h2, fun q hq => h3 q (e2 ▸ hq)⟩
    | some links =>
      obtain ⟨nodes', last, span, C, e, hC, hlast, ht⟩ :=
        reparent_chain b.tree.len cell.node hw.nok.next hl
      simp only
      rw [e]
      simp only
      have htab := relink_table (t := { b.tree with nodes := nodes' }) (nodes := b.tree.nodes)
        rfl ht links.parent links.prev
        ⟨d, explicit.getD span, links.parent, links.prev, none, some cell.node, some last⟩
      obtain ⟨g1, g2, g3⟩ := h.tab.wrap hl hC hlast d (explicit.getD span) htab
      have hidl := get_lt hl
      have hopen : ∀ p ∈ st, p < cell.node := by
        intro p hpm
        cases st with
        | nil => simp at hpm
        | cons q st =>
          have hq : b.parent = some q := by rw [hw.top]; rfl
          have h1 := hw.chain.le_head (p := q) rfl hpm
          have h2 := hcell c cell q hc (hp.trans hq)
          omega
      have habove : ∀ p ∈ st, Anc own p cell.node :=
        fun p hpm => h.desc p hpm cell.node (hopen p hpm) hidl
      have hlen : ∀ j, j < (Tree.relink { b.tree with nodes := nodes' } cell.node
          b.tree.nodes.length links.parent links.prev
          ⟨d, explicit.getD span, links.parent, links.prev, none, some cell.node,
            some last⟩).nodes.length ↔ j ≤ b.tree.nodes.length := by
        intro j
        constructor
        · intro hj
          obtain ⟨x, hx⟩ := get_of_lt hj
          rw [htab] at hx
          split at hx
          · omega
          · cases hb : b.tree.nodes[j]? with
            | none => rw [hb] at hx; simp at hx
            | some y => have := get_lt hb; omega
        · intro hj
          by_cases hjn : j = b.tree.nodes.length
          · have := htab j
            rw [if_pos hjn] at this
            exact get_lt this
          · obtain ⟨x, hx⟩ := get_of_lt (l := b.tree.nodes) (i := j) (by omega)
            have := htab j
            rw [if_neg hjn, hx] at this
            exact get_lt this
      refine ⟨_, _, g1, ?_, ?_, ?_, ?_, ?_⟩
      · intro s hs
        simp at hs; subst hs
        refine ⟨⟨_, (htab _).trans (if_pos rfl), rfl⟩, ?_⟩
        intro q hq
        exact g3 q (habove q (List.mem_of_mem_head? (hw.top ▸ hq)))
      · intro o ho
        obtain ⟨l, h1, h2⟩ := h.opn o ho
        have := hopen o ho
        refine ⟨_, (htab o).trans (by rw [if_neg (by omega), h1]; rfl), ?_⟩
        simp only [wrapUpd]
        rw [if_neg]
        · exact h2
        · intro hpv
          obtain ⟨lp, k1, k2⟩ := h.tab.prev _ _ o hl hpv
          rw [h1] at k1; simp at k1; subst k1
          rw [h2] at k2; simp at k2
      · intro o ho j hoj hj
        have hj' := (hlen j).1 hj
        by_cases hjn : j = b.tree.nodes.length
        · subst hjn; exact g3 o (habove o ho)
        · exact g2 _ _ (h.desc o ho j hoj (by omega))
      · intro f hf
        rw [relink_first] at hf
        simp only at hf
        split at hf
        · rename_i hx
          simp at hf; simp only [Tree.len] at hf; subst hf
          obtain ⟨k1, l, k2, k3⟩ := h.root _ hx
          rw [hl] at k2; simp at k2; subst k2
          exact ⟨by simp only [wrapOwn, if_true]; exact k1, _, (htab _).trans (if_pos rfl), k3⟩
        · rename_i hx
          obtain ⟨k1, l, k2, k3⟩ := h.root f hf
          have hfl := get_lt k2
          have hfid : f ≠ cell.node := by rintro rfl; exact hx hf
          have hfC : f ∉ C := by
            intro hfC
            obtain ⟨_, _, l2, q1, _, q3⟩ := hC.props h.tab f hfC
            rw [k2] at q1; simp at q1; subst q1
            obtain ⟨p, _, e⟩ := q3 hfid
            rw [k3] at e; simp at e
          refine ⟨?_, _, (htab f).trans (by rw [if_neg (by omega), k2]; rfl), ?_⟩
          · simp only [wrapOwn]; rw [if_neg (by omega), if_neg hfC]; exact k1
          · simp only [wrapUpd]; rw [if_neg hfid]; exact k3
      · intro hf
        rw [relink_first] at hf
        simp only at hf
        split at hf
        · simp at hf
        · have := h.full hf
          rw [this] at hl; simp at hl

end Syntree
