import Verif.Proof.ModIndex
import Verif.Props.Range
import Verif.Props.Reading

/-!
# Property C38: what range queries answer on the other kinds of trees

`C38_fails_token_with` and `C38_fails_modify` (in `Props/Range.lean`) show that C38 is false. Here is
what such queries do answer. Compare `C35_nearest_enclosing`: there the query goes to the childless
node that *contains* the start of the range; here it goes to the first one that *starts after* it.
-/

namespace Syntree

variable {α : Type} {fl : Flavor} {ops : List (Op α)} {t t' : Tree α} {F : Forest (Lab α)}
  {search : List TreeIndex → Nat → Search}

open Forest

theorem find_range {p : Nat → Bool} {n i : Nat} (hi : i < n) (hp : p i = true)
    (hlt : ∀ j, j < i → p j = false) : (List.range n).find? p = some i := by
  rw [List.find?_range_eq_some]
  exact ⟨hp, List.mem_range.2 hi, fun j hj => by simp [hlt j hj]⟩

/-- The first entry beyond `s` is the first node whose entry is beyond `s`. -/
theorem find_entry {L : List TreeIndex} {n s : Nat} {p : Nat → Bool}
    (hid : (L.map (·.id)).Pairwise (· < ·)) (hlt : ∀ ix ∈ L, ix.id < n)
    (hp : ∀ i, p i = true ↔ ∃ ix ∈ L, ix.id = i ∧ s < ix.index)
    (hu : ∀ a ∈ L, ∀ b ∈ L, a.id = b.id → a = b) :
    (List.range n).find? p = (L.find? (fun x => s < x.index)).map (·.id) := by
  cases hq : L.find? (fun x => decide (s < x.index)) with
  | none =>
    rw [List.find?_eq_none] at hq
    rw [Option.map_none, List.find?_eq_none]
    intro i _ hpi
    obtain ⟨ix, h1, _, h3⟩ := (hp i).1 hpi
    exact hq ix h1 (by simpa using h3)
  | some ix =>
    have hm := List.mem_of_find?_eq_some hq
    have hs : s < ix.index := by simpa using List.find?_some hq
    rw [Option.map_some]
    refine find_range (hlt ix hm) ((hp ix.id).2 ⟨ix, hm, rfl, hs⟩) ?_
    intro j hj
    cases hpj : p j with
    | false => rfl
    | true =>
      obtain ⟨iy, h1, rfl, h3⟩ := (hp j).1 hpj
      exfalso
      obtain ⟨_, as, bs, hL, has⟩ := List.find?_eq_some_iff_append.1 hq
      have : iy ∈ bs := by
        rw [hL] at h1
        rcases List.mem_append.1 h1 with h1 | h1
        · have := has iy h1; simp at this; omega
        · rcases List.mem_cons.1 h1 with rfl | h1
          · omega
          · exact h1
      rw [hL, List.map_append, List.map_cons, List.pairwise_append, List.pairwise_cons] at hid
      have := hid.2.1.1 iy.id (List.mem_map_of_mem this)
      omega

theorem TextAt.iff {i s : Nat} : TextAt t.nodes i s ↔
    hasChildren t.nodes i = false ∧ ∃ sp, nodeSpan t.nodes i = some sp ∧ sp.start < sp.stop ∧
      sp.start = s := by
  unfold TextAt hasChildren nodeSpan
  cases h : t.nodes[i]? with
  | none => simp
  | some l =>
    simp only [Option.some.injEq, Option.map_some, exists_eq_left', Option.isSome_eq_false_iff,
      Option.isNone_iff_eq_none]

/-- C38, for modified trees (`_partial`: the answers are not those C38 claims, see
`C38_fails_modify`): for every tree a program can get hold of (without inverted spans) and every
change set, a query `s..e` on the modified tree goes to the first childless node that is not empty
and *starts after* `s`; if there is none it answers `None`, and otherwise it climbs from there as in
C35. -/
theorem C38_modified_exact_partial (h : Obtained t)
    (hs : ∀ i sp, nodeSpan t.nodes i = some sp → sp.start ≤ sp.stop) {c : ChangeSet}
    (hm : c.modify fl t = .ok t') (hk : fl.keepIdx = true) {w : Nat} (hik : fl.ik = .bits w)
    (hsearch : SearchSpec search) (s e : Nat) :
    match (List.range t'.len).find? (fun i => ! hasChildren t'.nodes i &&
      (nodeSpan t'.nodes i).any (fun sp => sp.start < sp.stop && s < sp.start)) with
    | none => t'.nodeWithSpan search ⟨s, e⟩ = .none
    | some i => ∃ anc, Yields (Ancestors.next t'.nodes) (nodeAncestors i) (i :: anc) ∧
      t'.nodeWithSpan search ⟨s, e⟩ = .some (enclosing t' e i anc) := by
  have hx := modify_starts hk hik (fun i l hl => hs i l.span (by simp [nodeSpan, hl])) hm
  obtain ⟨_, _, _, _, _, ⟨_, _, he⟩ | ⟨n, t1, _, h1, hr, _⟩⟩ := h.sane.modify (fl := fl) c
  · rw [he] at hm; simp at hm
  rw [hm] at h1
  cases h1
  have hlt : ∀ ix ∈ t'.indexes, ix.id < t'.len := fun ix hix => ((hx.mem ix).1 hix).lt
  have hf := find_entry (s := s) hx.ids hlt (p := fun i => ! hasChildren t'.nodes i &&
      (nodeSpan t'.nodes i).any (fun sp => sp.start < sp.stop && s < sp.start)) (by
    intro i
    simp only [hx.mem, TextAt.iff, Bool.and_eq_true, Bool.not_eq_true', Option.any_eq_true,
      decide_eq_true_eq]
    constructor
    · rintro ⟨h1, sp, h2, h3, h4⟩
      exact ⟨⟨sp.start, i⟩, ⟨h1, sp, h2, h3, rfl⟩, rfl, h4⟩
    · rintro ⟨ix, ⟨h1, sp, h2, h3, h4⟩, rfl, h5⟩
      exact ⟨h1, sp, h2, h3, by omega⟩) (by
    intro a ha b hb hab
    rw [hx.mem, TextAt.iff] at ha hb
    obtain ⟨_, sp, h2, _, h4⟩ := ha
    obtain ⟨_, sq, h5, _, h6⟩ := hb
    rw [hab, h5] at h2
    cases h2
    cases a; cases b; simp_all)
  rw [hf]
  rcases hr.query hsearch hx.key hlt s e with ⟨q1, q2⟩ | ⟨ix, anc, left, x, kids, right, q1, q2, q3, q4⟩
  · rw [q1]; exact q2
  · rw [q1]
    simp only [Option.map_some]
    rw [← q3]
    exact ⟨_, hr.ancestors q2, q4⟩

/-- Two tokens and a node with two tokens, `0..3`, `3..5`, `5..6`, `6..9`: after a modification
without changes the query `1..2` answers with the second token instead of the first one. -/
def rowOps : List (Op Nat) :=
  [.token 1 3, .token 2 2, .open 3, .token 4 1, .token 5 3, .close]

def rowTree : Tree Nat :=
  match (Sys.init.run Flavor.default rowOps).1.b.build with
  | .ok t => t
  | .error _ => Tree.empty

def rowCopy : Tree Nat :=
  match ChangeSet.new.modify Flavor.default rowTree with
  | .ok t => t
  | .error _ => Tree.empty

theorem row_obtained : Obtained rowTree :=
  .built (ops := .new Flavor.default :: rowOps.map (.call 0)) (i := 0) rfl rfl rfl

example := C38_modified_exact_partial (fl := Flavor.default) (c := ChangeSet.new) row_obtained
  (by intro i sp h
      match i with
      | 0 | 1 | 2 | 3 | 4 => cases h; decide
      | i + 5 => cases (show (none : Option Span) = some sp from h))
  (t' := rowCopy) rfl rfl rfl C35_search_contract 1 2

example : rowCopy.nodeWithSpan binarySearch ⟨1, 2⟩ = .some 1 ∧
    rowTree.nodeWithSpan binarySearch ⟨1, 2⟩ = .some 0 := ⟨rfl, rfl⟩

/-! ## Trees made with `token_with` -/

/-- The index after a history in which every token with text was made by `token_with`. -/
structure WithIx (ops : List (Op α)) (os : List (Except Err Out)) (ix : List TreeIndex) : Prop where
  mem : ∀ x, x ∈ ix ↔ ∃ d sp, (made ops os)[x.id]? = some (.tokenWith d sp) ∧ sp.start = x.index
  ids : (ix.map (·.id)).Pairwise (· < ·)

theorem withIx_of_run (hk : fl.keepIdx = true) {n : Nest α}
    {os : List (Except Err Out)} (h : Nest.init.run fl ops = some (n, os))
    (hc : ∀ d len, Op.token d len ∈ ops → fl.ik.lenIsEmpty len = true) :
    WithIx ops os (Sys.init.run fl ops).1.b.tree.indexes := by
  refine Nest.run_induct (P := fun ops _ os =>
    (∀ d len, Op.token d len ∈ ops → fl.ik.lenIsEmpty len = true) →
    WithIx ops os (Sys.init.run fl ops).1.b.tree.indexes) ?_ ?_ ops n os h hc
  · intro _
    exact ⟨by intro x; simp [made, Sys.run, Sys.init, Builder.new, Tree.empty],
      by simp [Sys.run, Sys.init, Builder.new, Tree.empty]⟩
  · intro ops n os op n' o hrun ih hst hc
    have ih := ih (fun d len hm => hc d len (List.mem_append_left _ hm))
    obtain ⟨s, es, r⟩ := (Rel.init false).run (g' := false) fl ops hrun (by simp)
    have hrun' : Nest.init.run fl (ops ++ [op]) = some (n', os ++ [o]) := by
      rw [Nest.run_append, hrun]; simp only [Nest.run, hst]
    obtain ⟨s', es', r'⟩ := (Rel.init false).run (g' := false) fl _ hrun' (by simp)
    have e : s' = (s.step fl op).1 ∧ o = (s.step fl op).2 := by
      rw [Sys.run_append, es] at es'
      simp only [Sys.run, Prod.mk.injEq] at es'
      refine ⟨es'.1.symm, ?_⟩
      have := List.append_cancel_left es'.2
      simpa using this.symm
    have hx := Sys.step_indexes (fl := fl) s op
    rw [← e.1, ← e.2] at hx
    rw [es']
    rw [es] at ih
    simp only at ih ⊢
    rw [hx]
    have hms := made_snoc (Nest.run_length hrun) op o
    have hlen := (LogInv.of_run hrun).len
    have old : ∀ x ∈ s.b.tree.indexes, x.id < (made ops os).length := by
      intro x hx
      obtain ⟨d, sp, h1, _⟩ := (ih.mem x).1 hx
      exact (List.getElem?_eq_some_iff.1 h1).1
    -- nothing is pushed unless the call is `token_with`
    by_cases hp : ∃ d sp i, op = .tokenWith d sp ∧ o = .ok (.id i)
    · obtain ⟨d, sp, i, rfl, rfl⟩ := hp
      have hid : i = (made ops os).length := by
        rcases (Nest.step_did hst).count with ⟨h1, _⟩ | ⟨h1, _⟩
        · simp [idOf] at h1
        · rw [hlen]; simpa [idOf] using h1
      simp only [idOf, Option.isSome_some, if_true] at hms
      simp only [pushed, hk, if_true]
      subst hid
      refine ⟨?_, ?_⟩
      · intro x
        rw [List.mem_append, ih.mem, hms, List.mem_singleton]
        rcases Nat.lt_trichotomy x.id (made ops os).length with hlt | heq | hgt
        · rw [List.getElem?_append_left hlt]
          constructor
          · rintro (q | rfl)
            · exact q
            · simp at hlt
          · exact .inl
        · rw [heq, List.getElem?_append_right (Nat.le_refl _), Nat.sub_self,
            List.getElem?_eq_none (Nat.le_refl _)]
          simp only [List.getElem?_cons_zero, Option.some.injEq, Op.tokenWith.injEq]
          constructor
          · rintro (⟨_, _, q, _⟩ | rfl)
            · cases q
            · exact ⟨d, sp, ⟨rfl, rfl⟩, rfl⟩
          · rintro ⟨_, _, ⟨rfl, rfl⟩, q⟩
            right
            cases x; simp_all
        · rw [List.getElem?_eq_none (by omega), List.getElem?_eq_none (by simp; omega)]
          constructor
          · rintro (⟨_, _, q, _⟩ | rfl)
            · cases q
            · simp at hgt
          · rintro ⟨_, _, q, _⟩; cases q
      · rw [List.map_append, List.pairwise_append]
        refine ⟨ih.ids, by simp, ?_⟩
        intro a ha b hb
        obtain ⟨x, hx, rfl⟩ := List.mem_map.1 ha
        simp at hb
        subst hb
        exact old x hx
    · have hpu : pushed fl op o s'.b.cursor = [] := by
        unfold pushed
        split
        · rename_i d len i
          simp [hc d len (by simp)]
        · rename_i d sp i
          exact absurd ⟨d, sp, i, rfl, rfl⟩ hp
        · rfl
      rw [hpu, List.append_nil]
      refine ⟨?_, ih.ids⟩
      intro x
      rw [ih.mem, hms]
      rcases Nat.lt_trichotomy x.id (made ops os).length with hlt | heq | hgt
      · rw [List.getElem?_append_left hlt]
      · rw [heq, List.getElem?_append_right (Nat.le_refl _), Nat.sub_self,
          List.getElem?_eq_none (Nat.le_refl _)]
        cases ho : idOf o with
        | none => simp
        | some i =>
          simp only [Option.isSome_some, if_true, List.getElem?_cons_zero, Option.some.injEq]
          constructor
          · rintro ⟨_, _, q, _⟩; cases q
          · rintro ⟨d, sp, rfl, _⟩
            exact absurd ⟨d, sp, i, rfl, (by
              unfold idOf at ho
              split at ho
              · simp only [Option.some.injEq] at ho; rw [ho]
              · simp at ho)⟩ hp
      · rw [List.getElem?_eq_none (by omega), List.getElem?_eq_none (by
          simp only [List.length_append]; split <;> simp <;> omega)]

/-- Was node `i` made by a `token_with` call whose span starts after `s`? -/
def withAfter (calls : List (Op α)) (s i : Nat) : Bool :=
  match calls[i]? with
  | some (.tokenWith _ sp) => s < sp.start
  | _ => false

/-- C38, for trees whose tokens were made by `token_with` (`_partial`: the answers are not those C38
claims, see `C38_fails_token_with`): if every token that has a length was made by `token_with`, with
starts that increase, then a query `s..e` goes to the first such token that *starts after* `s`; if
there is none it answers `None`, and otherwise it climbs from there as in C35. (`made` lists the
calls that made a node: the `i`-th one made node `i`.) -/
theorem C38_token_with_exact_partial (h : Built fl ops t F)
    (hc : ∀ d len, Op.token d len ∈ ops → fl.ik.lenIsEmpty len = true)
    (hinc : ∀ (i j : Nat) d sp d' sp', i < j →
      (made ops (Sys.init.run fl ops).2)[i]? = some (.tokenWith d sp) →
      (made ops (Sys.init.run fl ops).2)[j]? = some (.tokenWith d' sp') → sp.start < sp'.start)
    (hk : fl.keepIdx = true) (hsearch : SearchSpec search) (s e : Nat) :
    match (List.range t.len).find? (withAfter (made ops (Sys.init.run fl ops).2) s) with
    | none => t.nodeWithSpan search ⟨s, e⟩ = .none
    | some i => ∃ anc d sp, (made ops (Sys.init.run fl ops).2)[i]? = some (.tokenWith d sp) ∧
      nodeSpan t.nodes i = some sp ∧ s < sp.start ∧
      Yields (Ancestors.next t.nodes) (nodeAncestors i) (i :: anc) ∧
      t.nodeWithSpan search ⟨s, e⟩ = .some (enclosing t e i anc) := by
  have hr := h.represents
  obtain ⟨n, os, h1, hs, hcur, ho, htree, hlen, _, _⟩ := h.parts
  have hx := withIx_of_run hk h1 hc
  rw [htree] at hx
  rw [ho] at hinc ⊢
  have hlt : ∀ ix ∈ t.indexes, ix.id < t.len := by
    intro ix hix
    obtain ⟨d, sp, q, _⟩ := (hx.mem ix).1 hix
    rw [hlen, ← (LogInv.of_run h1).len]
    exact (List.getElem?_eq_some_iff.1 q).1
  have hkey : (t.indexes.map (·.index)).Pairwise (· < ·) := by
    have := hx.ids
    rw [List.pairwise_map] at this ⊢
    refine List.Pairwise.imp_of_mem ?_ this
    intro a b ha hb hab
    obtain ⟨d, sp, q1, q2⟩ := (hx.mem a).1 ha
    obtain ⟨d', sp', q3, q4⟩ := (hx.mem b).1 hb
    have := hinc a.id b.id d sp d' sp' hab q1 q3
    omega
  have hf := find_entry (s := s) hx.ids hlt (p := withAfter (made ops os) s) (by
    intro i
    unfold withAfter
    constructor
    · intro q
      split at q
      · rename_i d sp heq
        exact ⟨⟨sp.start, i⟩, (hx.mem _).2 ⟨d, sp, heq, rfl⟩, rfl, by simpa using q⟩
      · cases q
    · rintro ⟨ix, q1, rfl, q3⟩
      obtain ⟨d, sp, q4, q5⟩ := (hx.mem ix).1 q1
      rw [q4]
      simpa [q5] using q3) (by
    intro a ha b hb hab
    obtain ⟨d, sp, q1, q2⟩ := (hx.mem a).1 ha
    obtain ⟨d', sp', q3, q4⟩ := (hx.mem b).1 hb
    rw [hab, q3] at q1
    cases q1
    cases a; cases b; simp_all)
  rw [hf]
  rcases hr.query hsearch hkey hlt s e with ⟨q1, q2⟩ | ⟨ix, anc, left, x, kids, right, q1, q2, q3, q4⟩
  · rw [q1]; exact q2
  · rw [q1]
    simp only [Option.map_some]
    obtain ⟨d, sp, q5, q6⟩ := (hx.mem ix).1 (List.mem_of_find?_eq_some q1)
    have hsx : s < ix.index := by simpa using List.find?_some q1
    rw [← q3] at q5 ⊢
    exact ⟨_, d, sp, q5, (C33_explicit_spans_kept_partial h (by rw [ho]; exact q5)).1 d sp rfl,
      by omega, hr.ancestors q2, q4⟩

/-- The same tokens with explicit spans: the query `1..2` answers with the second token. -/
def rowWithOps : List (Op Nat) :=
  [.tokenWith 1 ⟨0, 3⟩, .tokenWith 2 ⟨3, 5⟩, .open 3, .tokenWith 4 ⟨5, 6⟩, .tokenEmpty 7,
    .tokenWith 5 ⟨6, 9⟩, .close]

def rowWithTree : Tree Nat :=
  match (Sys.init.run Flavor.default rowWithOps).1.b.build with
  | .ok t => t
  | .error _ => Tree.empty

def startsUp : Option (Op Nat) → Option (Op Nat) → Bool
  | some (.tokenWith _ sp), some (.tokenWith _ sp') => sp.start < sp'.start
  | _, _ => true

example := C38_token_with_exact_partial (fl := Flavor.default) (ops := rowWithOps) (t := rowWithTree)
  ⟨_, _, rfl, rfl, rfl⟩ (by intro d len h; simp [rowWithOps] at h)
  (by intro i j d sp d' sp' hij hi hj
      change rowWithOps.dropLast[i]? = _ at hi
      change rowWithOps.dropLast[j]? = _ at hj
      have h1 := (List.getElem?_eq_some_iff.1 hi).1
      have h2 := (List.getElem?_eq_some_iff.1 hj).1
      simp [rowWithOps] at h1 h2
      have hall : ∀ i, i < 6 → ∀ j, j < 6 → i < j →
          startsUp rowWithOps.dropLast[i]? rowWithOps.dropLast[j]? = true := by decide
      have := hall i h1 j h2 hij
      rw [hi, hj] at this
      simpa [startsUp] using this)
  rfl C35_search_contract 1 2

example : rowWithTree.nodeWithSpan binarySearch ⟨1, 2⟩ = .some 1 := rfl

end Syntree
