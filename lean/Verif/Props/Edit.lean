import Verif.Proof.EditMany
import Verif.Proof.EditExact
import Verif.Proof.EditPaths
import Verif.Proof.Made
import Verif.Props.Equal
import Verif.Props.Traverse

/-!
# C41 – C44: `ChangeSet::modify`

The statements use `IsCopy`, `Edited`, `Forest.hitAt`, `Forest.prune`, `Forest.Numbered`, `Forest.TokenLast`,
`EndToEnd` and `Forest.pathsUp` of `Spec/Edit.lean`.
-/

namespace Syntree

variable {α : Type} {fl : Flavor} {t : Tree α} {F : Forest (Lab α)}

open Forest

/-! ## C44 -/

/-- C44: for every made tree and every change set (ids of the tree, ids of no tree, any number of
them), `modify` ends, with a tree or with `Overflow`. (`.error .diverge` is what the model returns
for a loop that does not end.) The resulting tree is again a made tree: a proper nested list of
nodes, with the ids `0, 1, 2, …` in document order, and its childless nodes lie end to end from the
start to the end of the text. -/
theorem C44_modify_terminates (h : Made fl t F) (c : ChangeSet) :
    c.modify fl t = .error .overflow ∨
    ∃ t' G, c.modify fl t = .ok t' ∧ Made fl t' G ∧ t'.listing = some G.listing ∧ G.Numbered ∧
      t'.span.start = 0 ∧ EndToEnd 0 G.leaves t'.span.stop ∧ t'.len = G.size := by
  obtain ⟨s1, s2⟩ := modify_spec (fl := fl) h.represents c
  cases hm : c.machine fl F with
  | error e => left; rw [s1 e hm, machine_total c F hm]
  | ok n =>
    right
    obtain ⟨t', h1, h2, h3, h4⟩ := s2 n hm
    have hi := machine_inv hm
    have hst : n.stack = [] := (machine_in hm).1
    have hsz : t'.len = n.cur.size := h2.size.symm
    refine ⟨t', n.cur, h1, .edited h h1 h2.listing, h2.listing, ?_, by rw [h3], ?_, hsz⟩
    · have := hi.out.ids
      rw [hst] at this
      rw [Forest.Numbered, ← hsz, h4]
      exact this
    · have := hi.out.laid
      rw [hst] at this
      rw [h3]
      exact this

example (c : ChangeSet) := C44_modify_terminates demo_made c

/-- The list of a made tree is determined by the tree. -/
theorem Made.unique {G : Forest (Lab α)} (h : Made fl t F) (hl : t.listing = some G.listing) :
    F = G := h.represents.listing_unique hl

/-- C44, nothing is made up: if a node of the modified tree has the values `v₀, v₁, …, vₖ` on the
way from it up to its root, then so has a node of the input. In particular every value comes from
the input, children stay below (copies of) their parents, and nothing gets deeper. -/
theorem C44_paths_from_input (h : Made fl t F) {c : ChangeSet} {t' : Tree α} {G : Forest (Lab α)}
    (hm : c.modify fl t = .ok t') (hG : t'.listing = some G.listing) :
    ∀ p ∈ (G.map (·.data)).pathsUp [], p ∈ (F.map (·.data)).pathsUp [] := by
  obtain ⟨s1, s2⟩ := modify_spec (fl := fl) h.represents c
  cases hc : c.machine fl F with
  | error e => rw [s1 e hc] at hm; simp at hm
  | ok n =>
    obtain ⟨t'', h1, h2, _, _⟩ := s2 n hc
    rw [hm] at h1
    simp only [Except.ok.injEq] at h1
    subst h1
    have e : n.cur = G := h2.listing_unique hG
    have := (machine_in hc).2
    rw [e] at this
    exact this

/-! ### A witness for the rest: built without checkpoints -/

/-- open 1; token 2 (3 long); open 3; token 4 (2 long); close; token 5 (1 long); close;
token 6 (1 long). -/
def plainOps : List (Op Nat) :=
  [.open 1, .token 2 3, .open 3, .token 4 2, .close, .token 5 1, .close, .token 6 1]

def plainTree : Tree Nat := (Sys.init.run Flavor.default plainOps).1.b.tree

def plainForest : Forest (Lab Nat) :=
  .cons ⟨0, 1, ⟨0, 6⟩⟩
    (.cons ⟨1, 2, ⟨0, 3⟩⟩ .nil
      (.cons ⟨2, 3, ⟨3, 5⟩⟩ (.cons ⟨3, 4, ⟨3, 5⟩⟩ .nil .nil) (.cons ⟨4, 5, ⟨5, 6⟩⟩ .nil .nil)))
    (.cons ⟨5, 6, ⟨6, 7⟩⟩ .nil .nil)

theorem plain_built : Built Flavor.default plainOps plainTree plainForest := ⟨_, _, rfl, rfl, rfl⟩

theorem plain_made : Made Flavor.default plainTree plainForest := .built plain_built

theorem plain_numbered : plainForest.Numbered := rfl

example : plainForest.Numbered := plain_built.numbered (by decide)

/-- A way to check `TokenLast`. -/
theorem Forest.TokenLast.of_cons {β : Type} {x : β} {k r : Forest β} (h1 : k.TokenLast)
    (h2 : r.TokenLast) (h3 : ∀ left y kids, k = left ++ single y kids → kids = .nil) :
    (Forest.cons x k r).TokenLast := by
  intro anc left y kids hl ha
  rcases hl.cases_cons with ⟨rfl, _⟩ | ⟨left', hl', _⟩ | ⟨anc', rfl, hl'⟩
  · exact absurd rfl ha
  · exact h2 _ _ _ _ hl' ha
  · by_cases ha' : anc' = []
    · subst ha'
      cases hl' with
      | root e => exact h3 _ _ _ e
    · exact h1 _ _ _ _ hl' ha'

/-- A check that can be run. -/
def Forest.endsTok {β : Type} : Forest β → Bool
  | .nil => true
  | .cons _ k .nil => k.isNil
  | .cons _ _ r => r.endsTok

def Forest.tokenLastB {β : Type} : Forest β → Bool
  | .nil => true
  | .cons _ k r => k.endsTok && k.tokenLastB && r.tokenLastB

theorem Forest.endsTok_spec {β : Type} {F : Forest β} (h : F.endsTok = true) :
    ∀ left y kids, F = left ++ single y kids → kids = .nil := by
  intro left
  induction left generalizing F with
  | nil =>
    rintro y kids rfl
    cases kids with
    | nil => rfl
    | cons => simp [Forest.endsTok, Forest.isNil] at h
  | cons x k r _ ih =>
    rintro y kids rfl
    refine ih (F := r ++ single y kids) ?_ y kids rfl
    cases hr : r ++ single y kids with
    | nil => rfl
    | cons a b c =>
      have e : (Forest.cons x k r ++ single y kids) = .cons x k (r ++ single y kids) := rfl
      rw [e, hr] at h
      exact h

theorem Forest.tokenLastB_spec {β : Type} {F : Forest β} (h : F.tokenLastB = true) :
    F.TokenLast := by
  induction F with
  | nil =>
    intro anc left y kids hl _
    have := hl.mem
    simp [preorder] at this
  | cons x k r ihk ihr =>
    simp only [Forest.tokenLastB, Bool.and_eq_true] at h
    exact .of_cons (ihk h.1.2) (ihr h.2) (endsTok_spec h.1.1)

theorem plain_tokenLast : plainForest.TokenLast := tokenLastB_spec rfl

/-! ## C41 -/

/-- C41, exactly, for every tree: with no change registered, or only changes for ids the tree does
not have, `modify` copies the tree: the same nesting, order and values, the childless nodes laid end
to end from `0`, the ids in document order — or it fails with `Overflow`, exactly if this does not
fit. -/
theorem C41_copy (h : Made fl t F) {c : ChangeSet} (hc : ∀ i ∈ c.changes, t.len ≤ i) :
    IsCopy fl (c.modify fl t) F :=
  (copy_of_machine h.represents (machine_none (fl := fl) (by
    rw [show F.size = t.len from h.represents.size]; exact hc))).1

theorem C41_copy_new (h : Made fl t F) : IsCopy fl (ChangeSet.new.modify fl t) F :=
  C41_copy h (by simp [ChangeSet.new])

example : IsCopy Flavor.default (ChangeSet.new.modify Flavor.default demoTree) demoForest :=
  C41_copy_new demo_made

/-- C41, partial: if only the cursor has placed the nodes, no token was lost for want of pointers,
and the last child of every node is childless, then `modify` with no change registered returns a
tree that is equal to its input, with the same span and number of nodes. Missing: nodes that end
with a node that has children (false, `C41_fails`) and explicit spans. -/
theorem C41_identity_partial [DecidableEq α] {ops : List (Op α)} (h : Built fl ops t F)
    (hc : ∀ op ∈ ops, op.cursorDriven = true) (hsp : Spare fl t.len (Sys.init.run fl ops).2)
    (hT : F.TokenLast) :
    ∃ t', ChangeSet.new.modify fl t = .ok t' ∧ t'.eq t = some true ∧ t.eq t' = some true ∧
      t'.span = t.span ∧ t'.len = t.len := by
  obtain ⟨hfits, e2, hspan, hsize⟩ := h.canonical hc hsp
  obtain ⟨t', h1, h2, h3, h4⟩ := (C41_copy_new (.built h)).1 hfits
  rw [relaid_shorten hT] at h2
  have hm : Made fl t' (F.relaid fl.ik) := .edited (.built h) h1 h2
  refine ⟨t', h1, ?_, ?_, by rw [h3, hspan], by rw [h4]; exact h.represents.size⟩
  · rw [C39_eq_iff_same_forest hm (.built h), Forest.relaid, e2]; simp
  · rw [C39_eq_iff_same_forest (.built h) hm, Forest.relaid, e2]; simp

example : ∃ t', ChangeSet.new.modify Flavor.default plainTree = .ok t' ∧
    t'.eq plainTree = some true :=
  have ⟨t', h1, h2, _⟩ := C41_identity_partial plain_built (by decide) (Or.inl (by decide))
    plain_tokenLast
  ⟨t', h1, h2⟩

/-! When exactly is the copy equal to the input? -/

theorem lastStop_content {F G : Forest (Lab α)} {s : Nat} (h : F.content = G.content) :
    F.lastStop s = G.lastStop s := by
  induction F generalizing G with
  | nil =>
    cases G with
    | nil => rfl
    | cons => simp [Forest.content, Forest.map] at h
  | cons x k r _ ihr =>
    cases G with
    | nil => simp [Forest.content, Forest.map] at h
    | cons y k' r' =>
      simp only [Forest.content, Forest.map, Forest.cons.injEq, Prod.mk.injEq] at h
      obtain ⟨⟨_, h1⟩, h2, h3⟩ := h
      have ih := ihr (G := r') h3
      cases r with
      | nil =>
        cases r' with
        | cons => simp [Forest.map] at h3
        | nil =>
          cases k with
          | nil =>
            cases k' with
            | nil => simp [Forest.lastStop, h1]
            | cons => simp [Forest.map] at h2
          | cons =>
            cases k' with
            | nil => simp [Forest.map] at h2
            | cons => simp [Forest.lastStop, h1]
      | cons a b c =>
        cases r' with
        | nil => simp [Forest.map] at h3
        | cons a' b' c' => simpa [Forest.lastStop] using ih

theorem shorten_content {F G : Forest (Lab α)} (h : F.content = G.content) :
    F.shorten.content = G.shorten.content := by
  induction F generalizing G with
  | nil =>
    cases G with
    | nil => rfl
    | cons => simp [Forest.content, Forest.map] at h
  | cons x k r ihk ihr =>
    cases G with
    | nil => simp [Forest.content, Forest.map] at h
    | cons y k' r' =>
      simp only [Forest.content, Forest.map, Forest.cons.injEq, Prod.mk.injEq] at h
      obtain ⟨⟨h0, h1⟩, h2, h3⟩ := h
      simp only [Forest.content] at ihk ihr
      simp only [Forest.content, Forest.shorten, Forest.map, ihk h2, ihr h3, h0, h1,
        lastStop_content (s := y.span.stop) h2]

theorem lastStop_snoc {left : Forest (Lab α)} {x : Lab α} {k : Forest (Lab α)} {s : Nat} :
    (left ++ single x k).lastStop s = if k.isNil then x.span.stop else x.span.start := by
  rw [lastStop_append]
  cases k <;> rfl

theorem forest_append_cancel {β : Type} {F G H : Forest β} (h : F ++ G = F ++ H) : G = H := by
  induction F with
  | nil => exact h
  | cons x k r _ ih =>
    have h' : Forest.cons x k (r ++ G) = .cons x k (r ++ H) := h
    simp only [Forest.cons.injEq, true_and] at h'
    exact ih h'

theorem exists_snoc : ∀ F : Forest (Lab α), F ≠ .nil → ∃ left x k, F = left ++ single x k
  | .nil, h => absurd rfl h
  | .cons x k .nil, _ => ⟨.nil, x, k, rfl⟩
  | .cons x k (.cons y k' r), _ => by
    obtain ⟨left, z, kz, e⟩ := exists_snoc (.cons y k' r) (by simp)
    exact ⟨.cons x k left, z, kz, by rw [e]; rfl⟩

theorem tight_cons {x : Lab α} {k r : Forest (Lab α)} :
    (Forest.cons x k r).Tight ↔ (∀ left y kids, k = left ++ single y kids → kids ≠ .nil →
      y.span.start = y.span.stop) ∧ k.Tight ∧ r.Tight := by
  constructor
  · intro h
    refine ⟨fun left y kids e => h x [] left y kids (.child (.root (left := .nil) rfl) e),
      fun p anc left y kids hl => h p (anc ++ [x]) left y kids hl.in_kids,
      fun p anc left y kids hl hk => ?_⟩
    obtain ⟨left', hl', _⟩ := hl.in_rest (x := x) (k := k)
    exact h _ _ _ _ _ hl' hk
  · rintro ⟨h1, h2, h3⟩ p anc left y kids hl hk
    rcases hl.cases_cons with ⟨h, _⟩ | ⟨left', hl', _⟩ | ⟨anc', e, hl'⟩
    · simp at h
    · exact h3 _ _ _ _ _ hl' hk
    · cases anc' with
      | nil =>
        cases hl' with
        | root e => exact h1 _ _ _ e hk
      | cons q anc' => exact h2 _ _ _ _ _ hl' hk

theorem Tiled.shorten_iff {a b : Nat} {F : Forest (Lab α)} (h : Tiled a F b) :
    F.shorten.content = F.content ↔ F.Tight := by
  induction F generalizing a b with
  | nil =>
    refine ⟨fun _ p anc left x kids hl => ?_, fun _ => rfl⟩
    have := hl.mem_ids; simp at this
  | cons x k r ihk ihr =>
    obtain ⟨_, _, hk, hr⟩ := h
    have e1 := ihr hr
    rw [tight_cons]
    by_cases hkn : k = .nil
    · subst hkn
      simp only [Forest.content, Forest.shorten, Forest.map, Forest.lastStop, Forest.cons.injEq,
        true_and] at e1 ⊢
      rw [e1]
      refine ⟨fun h => ⟨fun left y kids e => ?_, fun p anc left y kids hl => ?_, h⟩, fun h => h.2.2⟩
      · cases left <;> simp [HAppend.hAppend, Append.append, Forest.append] at e
      · have := hl.mem_ids; simp at this
    · have e2 := ihk (hk hkn)
      obtain ⟨left, y, kids, e⟩ := exists_snoc k hkn
      have hst : y.span.stop = x.span.stop := by
        have h3 := hk hkn
        rw [e] at h3
        obtain ⟨m, _, h4⟩ := h3.split
        exact h4.2.2.2
      have e3 : (∀ left y kids, k = left ++ Forest.single y kids → kids ≠ .nil →
          y.span.start = y.span.stop) ↔ k.lastStop x.span.stop = x.span.stop := by
        rw [e, lastStop_snoc]
        constructor
        · intro h
          split
          · exact hst
          · rename_i hn
            rw [h _ _ _ rfl (by rintro rfl; simp [Forest.isNil] at hn)]; exact hst
        · intro h left' y' kids' e' hn
          have e5 := congrArg Forest.tops e'
          have : y = y' ∧ kids = kids' := by
            have l1 := (last_of_append (left := left) (x := y) (kids := kids)).1
            have l2 := (last_of_append (left := left') (x := y') (kids := kids')).1
            rw [← e', l1] at l2
            subst l2
            have : Forest.single y kids = Forest.single y' kids' := forest_append_cancel e'
            simpa using this
          obtain ⟨rfl, rfl⟩ := this
          rw [if_neg (by cases kids <;> simp_all [Forest.isNil])] at h
          omega
      rw [e3, ← e2, ← e1]
      simp only [Forest.content, Forest.shorten, Forest.map, Forest.cons.injEq, Prod.mk.injEq,
        true_and]
      have : (({ start := x.span.start, stop := k.lastStop x.span.stop } : Span) = x.span) ↔
          k.lastStop x.span.stop = x.span.stop := by
        cases hx : x.span; simp
      rw [this]

/-- C41, exactly, where only the cursor has placed the nodes and no token was lost for want of
pointers: `modify` with no change registered succeeds, and returns a tree equal to its input *if and
only if* every last child that has children is without text. -/
theorem C41_identity_iff [DecidableEq α] {ops : List (Op α)} (h : Built fl ops t F)
    (hc : ∀ op ∈ ops, op.cursorDriven = true) (hsp : Spare fl t.len (Sys.init.run fl ops).2) :
    ∃ t', ChangeSet.new.modify fl t = .ok t' ∧ (t'.eq t = some true ↔ F.Tight) ∧
      t'.span = t.span ∧ t'.len = t.len := by
  obtain ⟨hfits, e2, hspan, hsize⟩ := h.canonical hc hsp
  obtain ⟨t', h1, h2, h3, h4⟩ := (C41_copy_new (.built h)).1 hfits
  have hm : Made fl t' ((F.relaid fl.ik).shorten) := .edited (.built h) h1 h2
  refine ⟨t', h1, ?_, by rw [h3, hspan], by rw [h4]; exact h.represents.size⟩
  rw [C39_eq_iff_same_forest hm (.built h), Forest.relaid, shorten_content e2]
  simp only [Option.some.injEq, decide_eq_true_eq]
  exact (h.lens hc hsp).1.shorten_iff

example : ∃ t', ChangeSet.new.modify Flavor.default plainTree = .ok t' ∧
    (t'.eq plainTree = some true ↔ plainForest.Tight) :=
  have ⟨t', h1, h2, _⟩ := C41_identity_iff plain_built (by decide) (Or.inl (by decide))
  ⟨t', h1, h2⟩

/-- C41 fails in general: a tree that is not equal to its copy. The text of the root ends before the
text of its only child does. -/
theorem C41_fails : ∃ (ops : List (Op Nat)) (t t' : Tree Nat) (F : Forest (Lab Nat)),
    Built Flavor.default ops t F ∧ (∀ op ∈ ops, op.cursorDriven = true) ∧
    ChangeSet.new.modify Flavor.default t = .ok t' ∧ t'.eq t = some false ∧
    nodeSpan t.nodes 0 = some ⟨0, 3⟩ ∧ nodeSpan t'.nodes 0 = some ⟨0, 0⟩ ∧
    nodeSpan t'.nodes 1 = some ⟨0, 3⟩ :=
  ⟨[.open 1, .open 2, .token 3 3, .close, .close], _, _, _, ⟨_, _, rfl, rfl, rfl⟩, by decide, rfl,
    rfl, rfl, rfl, rfl⟩

theorem shorten_literal : ∀ F : Forest (Lab α), F.shorten.literal = F.literal
  | .nil => rfl
  | .cons x .nil r => by
    simp only [Forest.shorten, Forest.literal, Forest.lastStop, shorten_literal r]
  | .cons x (.cons y k' r') r => by
    have := shorten_literal (.cons y k' r')
    simp only [Forest.shorten] at this
    simp only [Forest.shorten, Forest.literal, this, shorten_literal r]

theorem layout_literal (ik : IndexKind) : ∀ (F : Forest (Lab α)) (p i p' i' : Nat),
    (F.literal.layout ik p i).literal.layout ik p' i' = F.literal.layout ik p' i' ∧
    (F.literal.layout ik p i).literal.len ik = F.literal.len ik ∧
    (F.literal.layout ik p i).literal.count = F.literal.count
  | .nil, _, _, _, _ => ⟨rfl, rfl, rfl⟩
  | .cons x .nil r, p, i, p', i' => by
    obtain ⟨h1, h2, h3⟩ := layout_literal ik r (p + Lit.tokenLen ik (x.span.stop - x.span.start))
      (i + 1) (p' + Lit.tokenLen ik (x.span.stop - x.span.start)) (i' + 1)
    have e : Lit.tokenLen ik (p + Lit.tokenLen ik (x.span.stop - x.span.start) - p) =
        Lit.tokenLen ik (x.span.stop - x.span.start) := by
      rw [Nat.add_sub_cancel_left]; cases ik <;> rfl
    simp only [Forest.literal, Lit.layout, Lit.len, Lit.count, e, h1, h2, h3, and_self]
  | .cons x (.cons y k' r') r, p, i, p', i' => by
    have hk := fun p i p' i' => layout_literal ik (.cons y k' r') p i p' i'
    generalize hK : (Forest.cons y k' r') = K at hk
    have hne : ∃ a b c, (K.literal.layout ik p (i + 1)) = Forest.cons a b c := by
      rw [← hK]
      cases k' <;> exact ⟨_, _, _, rfl⟩
    obtain ⟨h1, h2, h3⟩ := hk p (i + 1) p' (i' + 1)
    obtain ⟨g1, g2, g3⟩ := layout_literal ik r (p + K.literal.len ik) (i + 1 + K.literal.count)
      (p' + K.literal.len ik) (i' + 1 + K.literal.count)
    have e1 : (Forest.cons x K r).literal = .node x.data K.literal r.literal := by rw [← hK]; rfl
    have e2 : ∀ (a : Lab α) R, (Forest.cons a (K.literal.layout ik p (i + 1)) R).literal =
        .node a.data (K.literal.layout ik p (i + 1)).literal R.literal := by
      obtain ⟨a', b, c, e⟩ := hne
      intro a R; rw [e]; rfl
    rw [e1]
    simp only [Lit.layout, e2, Lit.len, Lit.count, h1, h2, h3, g1, g2, g3, and_self]

/-- C41, copying twice: the copy of a copy lists exactly the same nodes as the copy, ids included.
(So what copying does to the spans, it does once.) -/
theorem C41_copy_idempotent [DecidableEq α] (h : Made fl t F) {t' : Tree α}
    (hm : ChangeSet.new.modify fl t = .ok t') :
    ∃ t'', ChangeSet.new.modify fl t' = .ok t'' ∧ t''.listing = t'.listing ∧
      t''.eq t' = some true ∧ t''.span = t'.span ∧ t''.len = t'.len := by
  have hc := C41_copy_new h
  by_cases hf : F.literal.Fits fl
  · obtain ⟨t1, h1, h2, h3, h4⟩ := hc.1 hf
    rw [hm] at h1
    simp only [Except.ok.injEq] at h1
    subst h1
    have hM : Made fl t' ((F.relaid fl.ik).shorten) := .edited h hm h2
    obtain ⟨e1, e2, e3⟩ := layout_literal fl.ik F 0 0 0 0
    have e0 : ((F.relaid fl.ik).shorten).literal = (F.literal.layout fl.ik 0 0).literal :=
      shorten_literal _
    have hf' : ((F.relaid fl.ik).shorten).literal.Fits fl := by
      unfold Lit.Fits; rw [e0, e2, e3]; exact hf
    obtain ⟨t'', q1, q2, q3, q4⟩ := (C41_copy_new hM).1 hf'
    have e4 : ((F.relaid fl.ik).shorten).relaid fl.ik = F.relaid fl.ik := by
      show Lit.layout _ _ _ ((F.relaid fl.ik).shorten).literal = _
      rw [e0, e1]; rfl
    rw [e4] at q2
    refine ⟨t'', q1, q2.trans h2.symm, ?_, ?_, ?_⟩
    · rw [C39_eq_iff_same_forest (.edited hM q1 q2) hM]; simp
    · rw [q3, h3, e0, e2]
    · rw [q4, h4]
      have := e3
      rw [← e0, count_literal, count_literal] at this
      exact this
  · rw [hc.2 hf] at hm
    simp at hm

example : ∃ t' t'', ChangeSet.new.modify Flavor.default demoTree = .ok t' ∧
    ChangeSet.new.modify Flavor.default t' = .ok t'' ∧ t''.listing = t'.listing :=
  have ⟨t', h, _⟩ := (C41_copy_new demo_made).1 ⟨by decide, by show 4 < 2 ^ 32; decide⟩
  have ⟨t'', h1, h2, _⟩ := C41_copy_idempotent demo_made h
  ⟨t', t'', h, h1, h2⟩

/-! ## C42 -/

/-- C42, exactly, for every tree: what `modify` does if one id of the tree is registered. It hits
the node at that *position of the document order*, in the way `Forest.hitAt` describes. -/
theorem C42_one_removal_exact (h : Made fl t F) {i : Nat} (hi : i < t.len) {c : ChangeSet}
    (hc : ∀ j, j ∈ c.changes ↔ j = i) : IsCopy fl (c.modify fl t) (F.hitAt i) :=
  (copy_of_machine h.represents (machine_one (fl := fl) hc (by
    rw [show F.size = t.len from h.represents.size]; exact hi) h.spec.2)).1

theorem remove_one (i : Nat) : ∀ j, j ∈ (ChangeSet.new.remove i).changes ↔ j = i := by
  simp [ChangeSet.new, ChangeSet.remove]

example : IsCopy Flavor.default ((ChangeSet.new.remove 2).modify Flavor.default demoTree)
    (demoForest.hitAt 2) :=
  C42_one_removal_exact demo_made (by decide) (remove_one 2)

/-- C42, partial: if the ids are in document order and the node `x` is a root or has a sibling after
it, then `modify` with `remove(x.id())` copies the tree without `x` and everything below `x`.
Missing: the last child of a node (false, `C42_fails_last_child`), trees with other orders of the
ids, as `close_at` makes them (false, `C42_fails_after_close_at`). -/
theorem C42_removes_subtree_partial (h : Made fl t F) (hn : F.Numbered) {anc : List (Lab α)}
    {left kids right : Forest (Lab α)} {x : Lab α} (hl : Loc F anc left x kids right)
    (hr : anc = [] ∨ right ≠ .nil) :
    IsCopy fl ((ChangeSet.new.remove x.id).modify fl t) (F.prune (fun y => decide (y.id = x.id))) := by
  have hsz : F.size = t.len := h.represents.size
  have hi : x.id < t.len := by
    have := hl.mem_ids
    rw [hn, List.mem_range, hsz] at this
    exact this
  have hids : F.ids = List.range' 0 F.size := by rw [hn, List.range_eq_range']
  have := hitAt_eq_prune F 0 x.id hids (by omega) (by
    intro anc' left' x' kids' hl' e
    rw [Nat.zero_add] at e
    have := Loc.unique h.represents.nodup hl hl' e.symm
    obtain ⟨e1, _, _, _, e5⟩ := this
    rcases hr with hr | hr
    · rw [← e1]; exact hr
    · exact absurd e5 hr)
  rw [Nat.zero_add] at this
  rw [← this]
  exact C42_one_removal_exact h hi (remove_one _)

theorem plain_loc : Loc plainForest [⟨0, 1, ⟨0, 6⟩⟩] (leaf ⟨1, 2, ⟨0, 3⟩⟩) ⟨2, 3, ⟨3, 5⟩⟩
    (.cons ⟨3, 4, ⟨3, 5⟩⟩ .nil .nil) (.cons ⟨4, 5, ⟨5, 6⟩⟩ .nil .nil) :=
  .child (.root (left := .nil) rfl) rfl

/-- Node 2 with its child 3 goes away. -/
example : IsCopy Flavor.default ((ChangeSet.new.remove 2).modify Flavor.default plainTree)
    (plainForest.prune (fun y => decide (y.id = 2))) :=
  C42_removes_subtree_partial plain_made plain_numbered plain_loc (.inr (by simp))

/-- C42, partial, with all spans: if also the last child of every remaining node is childless, the
result is, ids, values and spans, the tree that `tree!` makes of the literal of the remaining
nodes. -/
theorem C42_removes_subtree_relaid_partial [DecidableEq α] (h : Made fl t F) (hn : F.Numbered)
    {anc : List (Lab α)} {left kids right : Forest (Lab α)} {x : Lab α}
    (hl : Loc F anc left x kids right) (hr : anc = [] ∨ right ≠ .nil)
    (hT : (F.prune (fun y => decide (y.id = x.id))).TokenLast)
    (hf : (F.prune (fun y => decide (y.id = x.id))).literal.Fits fl) :
    ∃ t' t'', (ChangeSet.new.remove x.id).modify fl t = .ok t' ∧
      (F.prune (fun y => decide (y.id = x.id))).literal.tree fl = .ok t'' ∧
      t'.listing = t''.listing ∧ t'.eq t'' = some true ∧ t'.span = t''.span ∧ t'.len = t''.len := by
  obtain ⟨t', h1, h2, h3, h4⟩ := (C42_removes_subtree_partial h hn hl hr).1 hf
  obtain ⟨t'', q1, q2, q3, q4, q5⟩ := C01_literal_round_trip (fl := fl) _ (literal_plain _) hf
  rw [relaid_shorten hT] at h2
  have hm : Made fl t' _ := .edited h h1 h2
  refine ⟨t', t'', h1, q1, ?_, ?_, ?_, ?_⟩
  · rw [h2]
    exact q5.represents.listing.symm
  · rw [C39_eq_iff_same_forest hm (.built q5)]
    simp [Forest.relaid]
  · rw [h3, q4]
  · rw [h4, q3, count_literal]

example : ∃ t' t'', (ChangeSet.new.remove 2).modify Flavor.default plainTree = .ok t' ∧
    Lit.tree Flavor.default (.node 1 (.token 2 3 (.token 5 1 .nil)) (.token 6 1 .nil)) = .ok t'' ∧
    t'.eq t'' = some true :=
  have ⟨t', t'', h1, h2, _, h3, _⟩ := C42_removes_subtree_relaid_partial plain_made plain_numbered
    plain_loc (.inr (by simp)) (tokenLastB_spec rfl) ⟨by decide, by show 5 < 2 ^ 32; decide⟩
  ⟨t', t'', h1, h2, h3⟩

/-- C42 fails for *every* last child of a node: instead of losing `x` and what is below it, the tree
gets larger, by one node plus all the nodes in front of `x` below its parent. -/
theorem C42_fails_last_child (h : Made fl t F) (hn : F.Numbered) {p : Lab α} {anc : List (Lab α)}
    {left kids : Forest (Lab α)} {x : Lab α} (hl : Loc F (p :: anc) left x kids .nil) {t' : Tree α}
    (hm : (ChangeSet.new.remove x.id).modify fl t = .ok t') : t'.len = t.len + 1 + left.size := by
  have hsz : F.size = t.len := h.represents.size
  have hi : x.id < t.len := by
    have := hl.mem_ids
    rw [hn, List.mem_range, hsz] at this
    exact this
  have hids : F.ids = List.range' 0 F.size := by rw [hn, List.range_eq_range']
  have e := hitAt_last_size F 0 hids hl
  rw [Nat.sub_zero, hsz] at e
  rw [← e]
  have hc := C42_one_removal_exact h hi (remove_one x.id)
  by_cases hf : (F.hitAt x.id).literal.Fits fl
  · obtain ⟨t1, h1, _, _, h4⟩ := hc.1 hf
    rw [hm] at h1
    simp only [Except.ok.injEq] at h1
    rw [h1]; exact h4
  · rw [hc.2 hf] at hm
    simp at hm

/-- C42 fails, concretely: a root with one child; asked to remove the child, `modify` answers with
two copies of the root, one of them with the child. -/
theorem C42_fails : ∃ (t t' : Tree Nat) (F : Forest (Lab Nat)),
    Made Flavor.default t F ∧ F.Numbered ∧
    F = .cons ⟨0, 1, ⟨0, 3⟩⟩ (leaf ⟨1, 2, ⟨0, 3⟩⟩) .nil ∧
    (ChangeSet.new.remove 1).modify Flavor.default t = .ok t' ∧
    t'.listing = some (Forest.listing (.cons ⟨0, 1, ⟨0, 0⟩⟩ .nil
      (.cons ⟨1, 1, ⟨0, 3⟩⟩ (leaf ⟨2, 2, ⟨0, 3⟩⟩) .nil))) :=
  ⟨_, _, _, .built (ops := [.open 1, .token 2 3, .close]) ⟨_, _, rfl, rfl, rfl⟩, rfl, rfl, rfl, rfl⟩

/-- C42 fails after `close_at`, where ids are not in document order: the tree is
`4: (2, 3), 5`, node 2 has id 0, node 4 has id 2. Asked to remove node 2 (id 0), the first child of
its parent, `modify` removes node 4, the parent. -/
theorem C42_fails_after_close_at : ∃ (t t' : Tree Nat) (F : Forest (Lab Nat)),
    Made Flavor.default t F ∧
    F = .cons ⟨2, 4, ⟨0, 2⟩⟩ (.cons ⟨0, 2, ⟨0, 1⟩⟩ .nil (leaf ⟨1, 3, ⟨1, 2⟩⟩)) (leaf ⟨3, 5, ⟨2, 3⟩⟩) ∧
    (ChangeSet.new.remove 0).modify Flavor.default t = .ok t' ∧
    t'.listing = some (Forest.listing (leaf ⟨0, 5, ⟨0, 1⟩⟩)) :=
  have h : Made Flavor.default (Sys.init.run Flavor.default
      [.checkpoint, .token 2 1, .token 3 1, .closeAt 0 4, .token 5 1]).1.b.tree
      (.cons ⟨2, 4, ⟨0, 2⟩⟩ (.cons ⟨0, 2, ⟨0, 1⟩⟩ .nil (leaf ⟨1, 3, ⟨1, 2⟩⟩))
        (leaf ⟨3, 5, ⟨2, 3⟩⟩)) :=
    .built (ops := [.checkpoint, .token 2 1, .token 3 1, .closeAt 0 4, .token 5 1])
      ⟨_, _, rfl, rfl, rfl⟩
  ⟨_, _, _, h, rfl, rfl, rfl⟩

/-! ## C43 -/

/-- C43 fails: of the roots `1 2 3` with the ids `0 1 2`, the ones with the ids `0` and `1` are to be
removed. The second one stays and the third one goes. -/
theorem C43_fails : ∃ (t t' : Tree Nat) (F : Forest (Lab Nat)),
    Made Flavor.default t F ∧ F.Numbered ∧ F.preorder.map (fun x => (x.id, x.data)) =
      [(0, 1), (1, 2), (2, 3)] ∧
    ((ChangeSet.new.remove 0).remove 1).modify Flavor.default t = .ok t' ∧
    t'.listing = some (Forest.listing (leaf ⟨0, 2, ⟨0, 1⟩⟩)) :=
  ⟨_, _, _, .built (ops := [.token 1 1, .token 2 1, .token 3 1]) ⟨_, _, rfl, rfl, rfl⟩, rfl, rfl,
    rfl, rfl⟩

theorem run_congr {S S' : List Nat} (h : ∀ i, i ∈ S ↔ i ∈ S') : ∀ (fuel : Nat) (m : EM α),
    EM.run fl S fuel m = EM.run fl S' fuel m
  | 0, _ => rfl
  | fuel + 1, .done n => rfl
  | fuel + 1, .at x k r ctx n => by
    have e : EM.step fl S x k r ctx n = EM.step fl S' x k r ctx n := by
      unfold EM.step
      simp only [h]
    simp only [EM.run, e]
    cases EM.step fl S' x k r ctx n with
    | error => rfl
    | ok m => exact run_congr h fuel m

/-- C43, the part that says "set": the order in which `remove` is called, and calling it twice for
the same id, do not matter. -/
theorem C43_only_the_set_matters (h : Made fl t F) {c c' : ChangeSet}
    (hc : ∀ i, i ∈ c.changes ↔ i ∈ c'.changes) :
    (∀ e, c.modify fl t = .error e ↔ c'.modify fl t = .error e) ∧
    (∀ t', c.modify fl t = .ok t' → ∃ t'', c'.modify fl t = .ok t'' ∧ t''.listing = t'.listing ∧
      t''.span = t'.span ∧ t''.len = t'.len) := by
  have e : c.machine fl F = c'.machine fl F := by
    have h1 : c.machine fl F ≠ .error .diverge := fun he => by
      have := machine_total c F he; simp at this
    have h2 : c'.machine fl F ≠ .error .diverge := fun he => by
      have := machine_total c' F he; simp at this
    unfold ChangeSet.machine at h1 h2 ⊢
    rw [run_congr hc] at h1 ⊢
    generalize (c.changes.length + 1) * (F.size + 1) + 1 = N at h1 ⊢
    generalize (c'.changes.length + 1) * (F.size + 1) + 1 = M at h2 ⊢
    rw [← run_more N M _ h1, Nat.add_comm, run_more _ _ _ h2]
  obtain ⟨s1, s2⟩ := modify_spec (fl := fl) h.represents c
  obtain ⟨r1, r2⟩ := modify_spec (fl := fl) h.represents c'
  rw [← e] at r1 r2
  cases hm : c.machine fl F with
  | error e0 =>
    rw [s1 _ hm, r1 _ hm]
    simp
  | ok n =>
    obtain ⟨t1, p1, p2, p3, p4⟩ := s2 _ hm
    obtain ⟨t2, q1, q2, q3, q4⟩ := r2 _ hm
    rw [p1, q1]
    refine ⟨by simp, fun t' ht => ?_⟩
    simp only [Except.ok.injEq] at ht
    subst ht
    exact ⟨t2, rfl, by rw [p2.listing, q2.listing], by rw [p3, q3], by rw [p4, q4]⟩

example {c : ChangeSet} := C43_only_the_set_matters plain_made (c := (c.remove 2).remove 1)
  (c' := ((c.remove 1).remove 2).remove 1) (by
    intro i; simp only [ChangeSet.remove, List.mem_cons]
    constructor
    · rintro (h | h | h) <;> simp [h]
    · rintro (h | h | h | h) <;> simp [h])

/-- C43, partial: how several nodes can be removed with one change set. Let `p` mark nodes such that
every marked node (not below another marked one) is followed by an unmarked sibling, or is the last root. Register for every marked
node not the id it has, but the *number of nodes before it that stay*: the id it would have in the
result. Then `modify` copies the tree without the marked nodes and everything below them.

Missing: `remove(node.id())` for several nodes (false, `C43_fails`). For the first marked node in
document order the two numbers agree, if the ids are in document order. -/
theorem C43_remove_many_partial (h : Made fl t F) {p : Lab α → Bool} (hs : F.Spaced p)
    {c : ChangeSet} (hc : ∀ j, j ∈ c.changes ↔ j ∈ F.cuts p 0) :
    IsCopy fl (c.modify fl t) (F.prune p) :=
  (copy_of_machine h.represents (machine_many (fl := fl) hs (fun j _ => hc j) h.spec.2)).1

/-- The nodes with the values 2 (id 1) and 6 (id 5) are removed by registering the ids 1 and 4. -/
example : IsCopy Flavor.default (((ChangeSet.new.remove 1).remove 4).modify Flavor.default plainTree)
    (plainForest.prune fun x => decide (x.data = 2) || decide (x.data = 6)) :=
  C43_remove_many_partial plain_made (.of_check rfl) (by
    intro j
    have e : plainForest.cuts (fun x => decide (x.data = 2) || decide (x.data = 6)) 0 = [1, 4] := rfl
    rw [e]
    simp only [ChangeSet.remove, ChangeSet.new, List.mem_cons, List.not_mem_nil, or_false]
    exact Or.comm)

/-- C51, for every tree and every change set: what `modify` does is what the rules of
`Edited` (`Spec/Edit.lean`) say, which determine one nested list for every set of registered ids. -/
theorem C51_modify_exact (h : Made fl t F) (c : ChangeSet) :
    ∃ G cut, Edited c.changes false 0 F G cut ∧
      (∀ G' cut', Edited c.changes false 0 F G' cut' → G' = G ∧ cut' = cut) ∧
      IsCopyCut fl (c.modify fl t) G cut := by
  obtain ⟨G, cut, hE⟩ := Edited.total c.changes 0 F
  exact ⟨G, cut, hE, fun _ _ h' => hE.unique h', copy_edited h.represents hE⟩

/-- The tree `1: (2, 3: (4), 5), 6` with the ids 1 and 3 registered. The 2 goes (it would get the id
1), the 3 gets this id instead without being looked at and the 4 gets the id 2; the 5, the last
child, would get the id 3 and is cut off; so the 1 follows once more, getting the id 3, with all of
its children, and the 6. -/
example : IsCopyCut Flavor.default
    (((ChangeSet.new.remove 1).remove 3).modify Flavor.default plainTree)
    (.cons ⟨0, 1, ⟨0, 0⟩⟩ (.cons ⟨2, 3, ⟨3, 5⟩⟩ (leaf ⟨3, 4, ⟨3, 5⟩⟩) .nil) plainForest) false := by
  obtain ⟨G, cut, _, h2, h3⟩ := C51_modify_exact plain_made ((ChangeSet.new.remove 1).remove 3)
  have hE : Edited ((ChangeSet.new.remove 1).remove 3).changes false 0 plainForest
      (.cons ⟨0, 1, ⟨0, 0⟩⟩ (.cons ⟨2, 3, ⟨3, 5⟩⟩ (leaf ⟨3, 4, ⟨3, 5⟩⟩) .nil) plainForest) false :=
    .keep (by decide) <| .again (by simp)
      (.skip (by decide) (.node (by simp) (.keep (by decide) (.leaf .nil)) (.last (by decide))))
      (.node (by simp)
        (.keep (by decide) (.leaf (.keep (by decide) (.node (by simp)
          (.keep (by decide) (.leaf .nil)) (.keep (by decide) (.leaf .nil))))))
        (.keep (by decide) (.leaf .nil)))
  obtain ⟨rfl, rfl⟩ := h2 _ _ hE
  exact h3

/-! ## Reading an edited tree -/

theorem modify_exact (h : Made fl t F) {c : ChangeSet} {t' : Tree α}
    {G : Forest (Lab α)} (hm : c.modify fl t = .ok t') (hG : t'.listing = some G.listing) :
    Represents true t' G := by
  obtain ⟨s1, s2⟩ := modify_spec (fl := fl) h.represents c
  cases hc : c.machine fl F with
  | error e => rw [s1 _ hc] at hm; simp at hm
  | ok n =>
    obtain ⟨t1, p1, p2, _⟩ := s2 _ hc
    rw [hm] at p1
    simp only [Except.ok.injEq] at p1
    subst p1
    rw [← p2.listing_unique hG]; exact p2

/-- C13 holds for every modified tree: any interleaving of `next` and `next_back` on `children()`
hands out the children from the two ends. -/
theorem C13_double_ended_modified_partial (h : Made fl t F) {c : ChangeSet} {t' : Tree α}
    {G : Forest (Lab α)} (hm : c.modify fl t = .ok t') (hG : t'.listing = some G.listing)
    (bs : List Bool) :
    runEnds (Children.next t'.nodes) (Children.nextBack t'.nodes) bs t'.children =
      (takeEnds bs (G.tops.map (·.id))).map Got.ofOption ∧
    ∀ {anc : List (Lab α)} {left kids right : Forest (Lab α)} {x : Lab α},
      Loc G anc left x kids right →
      runEnds (Children.next t'.nodes) (Children.nextBack t'.nodes) bs (nodeChildren t'.nodes x.id) =
        (takeEnds bs (kids.tops.map (·.id))).map Got.ofOption :=
  children_ends_exact (modify_exact h hm hG) bs

/-- C14 holds for every modified tree: `last()` is the last child. -/
theorem C14_last_modified_partial (h : Made fl t F) {c : ChangeSet} {t' : Tree α}
    {G : Forest (Lab α)} (hm : c.modify fl t = .ok t') (hG : t'.listing = some G.listing) :
    t'.lastNode = (G.tops.map (·.id)).getLast? ∧
    ∀ {anc : List (Lab α)} {left kids right : Forest (Lab α)} {x : Lab α},
      Loc G anc left x kids right →
      nodeLast t'.nodes x.id = (kids.tops.map (·.id)).getLast? :=
  ⟨(modify_exact h hm hG).tree_last.2.2.1 rfl, fun hl => ((modify_exact h hm hG).node_last hl).2.2.1 rfl⟩

/-- `demoTree` has a wrapped pair and is not among the trees of `C13_double_ended_partial`. -/
example : ∃ t', (ChangeSet.new.remove 9).modify Flavor.default demoTree = .ok t' ∧
    t'.lastNode = some 5 := by
  obtain ⟨t', h1, h2, _⟩ := (C41_copy demo_made (c := ChangeSet.new.remove 9)
    (by simp [ChangeSet.new, ChangeSet.remove]; decide)).1 ⟨by decide, by show 4 < 2 ^ 32; decide⟩
  exact ⟨t', h1, (C14_last_modified_partial demo_made h1 h2).1⟩

end Syntree
