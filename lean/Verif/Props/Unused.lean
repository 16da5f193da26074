import Verif.Proof.Unique
import Verif.Proof.Bridge
import Verif.Props.Edit

/-!
# Properties C77 and C78: a tree is determined by what a walk lists, and checkpoints that are not used
-/

namespace Syntree

open Forest

variable {α : Type} {fl fl' : Flavor}

/-! ## C77 -/

/-- C77: two trees, made in whatever way, for which a walk lists the same nodes (depth, id, value, span)
have the same links: every navigation method and every iterator, also those that go backwards, answers
the same on both. (All of them read nothing but `nodes`, `first` and `last`.) -/
theorem C77_listing_determines_links {t t' : Tree α} {F F' : Forest (Lab α)} (h : Made fl t F)
    (h' : Made fl' t' F') (hl : t.listing = t'.listing) :
    t.nodes = t'.nodes ∧ t.first = t'.first ∧ t.last = t'.last := by
  have e : F = F' := by
    have h1 := h.represents.listing
    have h2 := h'.represents.listing
    rw [h1, h2] at hl
    exact listing_inj (Option.some.inj hl)
  subst e
  exact h.represents.unique h'.represents

/-- The same in terms of the methods of a node: what `value()`, `span()`, `parent()`, `prev()`, `next()`,
`first()` and `last()` return, for every id, and what iterating over the children from both ends in any
order gives. -/
theorem C77_same_answers {t t' : Tree α} {F F' : Forest (Lab α)} (h : Made fl t F)
    (h' : Made fl' t' F') (hl : t.listing = t'.listing) :
    (∀ i, nodeValue t.nodes i = nodeValue t'.nodes i ∧ nodeSpan t.nodes i = nodeSpan t'.nodes i ∧
      nodeParent t.nodes i = nodeParent t'.nodes i ∧ nodePrev t.nodes i = nodePrev t'.nodes i ∧
      nodeNext t.nodes i = nodeNext t'.nodes i ∧ nodeFirst t.nodes i = nodeFirst t'.nodes i ∧
      nodeLast t.nodes i = nodeLast t'.nodes i ∧
      ∀ bs, runEnds (Children.next t.nodes) (Children.nextBack t.nodes) bs (nodeChildren t.nodes i) =
        runEnds (Children.next t'.nodes) (Children.nextBack t'.nodes) bs (nodeChildren t'.nodes i)) ∧
    t.firstNode = t'.firstNode ∧ t.lastNode = t'.lastNode ∧
    ∀ bs, runEnds (Children.next t.nodes) (Children.nextBack t.nodes) bs t.children =
      runEnds (Children.next t'.nodes) (Children.nextBack t'.nodes) bs t'.children := by
  obtain ⟨h1, h2, h3⟩ := C77_listing_determines_links h h' hl
  refine ⟨fun i => ?_, ?_, ?_, ?_⟩
  · rw [h1]; simp
  · have hg : t.get = t'.get := by funext i; simp only [Tree.get, h1]
    simp only [Tree.firstNode, h2, hg]
  · have hg : t.get = t'.get := by funext i; simp only [Tree.get, h1]
    simp only [Tree.lastNode, h3, hg]
  · intro bs; simp [Tree.children, h1, h2, h3]

/-- A copy of a tree and a copy of that copy. -/
example : ∃ t' t'' : Tree Nat, ChangeSet.new.modify Flavor.default demoTree = .ok t' ∧
    ChangeSet.new.modify Flavor.default t' = .ok t'' ∧ t'.nodes = t''.nodes := by
  obtain ⟨t', h, hl, _⟩ := (C41_copy_new demo_made).1 ⟨by decide, by show 4 < 2 ^ 32; decide⟩
  obtain ⟨t'', h1, h2, _⟩ := C41_copy_idempotent demo_made h
  exact ⟨t', t'', h, h1,
    (C77_listing_determines_links (.edited demo_made h hl)
      (.edited (.edited demo_made h hl) h1 (h2.trans hl)) h2.symm).1⟩

example : ∃ t' t'' : Tree Nat, ChangeSet.new.modify Flavor.default demoTree = .ok t' ∧
    ChangeSet.new.modify Flavor.default t' = .ok t'' ∧ t'.lastNode = t''.lastNode := by
  obtain ⟨t', h, hl, _⟩ := (C41_copy_new demo_made).1 ⟨by decide, by show 4 < 2 ^ 32; decide⟩
  obtain ⟨t'', h1, h2, _⟩ := C41_copy_idempotent demo_made h
  exact ⟨t', t'', h, h1,
    (C77_same_answers (.edited demo_made h hl)
      (.edited (.edited demo_made h hl) h1 (h2.trans hl)) h2.symm).2.2.1⟩

/-! ## C78 -/

theorem without_last (n : Nest α) (m : Mark) :
    ({ n with marks := n.marks ++ [m] } : Nest α).without n.marks.length = n := by
  unfold Nest.without
  have : (n.marks ++ [m]).eraseIdx n.marks.length = n.marks := by
    rw [List.eraseIdx_append_of_length_le (Nat.le_refl _)]; simp
  simp only [this]

/-- Both histories. -/
theorem unused_both {pre post : List (Op α)}
    (hroom : (Sys.init.run fl pre).1.b.tree.len < 2 ^ fl.width - 1)
    (hu : ∀ op ∈ post, ∀ d e, ¬ UsesAt op (Sys.init.run fl pre).1.handles.length d e)
    {n0 : Nest α} {os0 : List (Except Err Out)} (hp : Nest.init.run fl pre = some (n0, os0)) :
    let s := Sys.init.run fl pre
    let k := s.1.handles.length
    let post' := post.map (Op.without k)
    (Nest.init.run fl (pre ++ .checkpoint :: post) = none ∧ Nest.init.run fl (pre ++ post') = none) ∨
    ∃ n os, Nest.init.run fl (pre ++ .checkpoint :: post) = some (n, s.2 ++ .ok (.handle k) :: os) ∧
      Nest.init.run fl (pre ++ post') = some (n.without k, s.2 ++ os.map (Except.map (Out.without k))) ∧
      Rel false (Sys.init.run fl (pre ++ .checkpoint :: post)).1 n ∧
      Rel false (Sys.init.run fl (pre ++ post')).1 (n.without k) ∧
      (Sys.init.run fl (pre ++ post')).1.b.tree.indexes =
        (Sys.init.run fl (pre ++ .checkpoint :: post)).1.b.tree.indexes ∧
      (Sys.init.run fl (pre ++ .checkpoint :: post)).2 = s.2 ++ .ok (.handle k) :: os ∧
      (Sys.init.run fl (pre ++ post')).2 = s.2 ++ os.map (Except.map (Out.without k)) := by
  obtain ⟨S, eS, rS⟩ := (Rel.init false).run (g' := false) fl pre hp (by simp)
  have hlen : S.b.tree.len = n0.count := rS.tree.len
  have hk : S.handles.length = n0.marks.length := rS.marks.len
  simp only [eS, hlen, hk] at hroom hu ⊢
  have hnf : n0.full fl = false := by
    have := not_full_iff (fl := fl) (n := n0).2 hroom
    simpa using this
  have e1 : n0.step fl .checkpoint = some ({ n0 with marks := n0.marks ++ [⟨n0.frame, n0.cur.width, true⟩] },
      .ok (.handle n0.marks.length)) := by simp [Nest.step, hnf]
  have hw := without_last n0 ⟨n0.frame, n0.cur.width, true⟩
  obtain ⟨S1, eS1, rS1⟩ := rS.step (g' := false) fl .checkpoint e1 (by simp)
  generalize hn1 : ({ n0 with marks := n0.marks ++ [⟨n0.frame, n0.cur.width, true⟩] } : Nest α) = n1
    at e1 hw rS1
  have hlt : n0.marks.length < n1.marks.length := by rw [← hn1]; simp
  have hidx : S.b.tree.indexes = S1.b.tree.indexes := by
    have := Sys.step_indexes (fl := fl) S .checkpoint
    rw [eS1] at this
    simpa [pushed] using this.symm
  have hr := n1.run_without (fl := fl) hlt hu
  rw [hw] at hr
  simp only [Nest.run_append, hp, Nest.run_step_cons _ e1, hr]
  cases hq : n1.run fl post with
  | none => left; simp
  | some q =>
    obtain ⟨n, os⟩ := q
    right
    have hu' := unused_run (fl := fl) (s' := S) rS1 (by rw [hw]; exact rS) hidx hlt hu hq
    obtain ⟨a1, a2, a3, a4, a5⟩ := hu'
    refine ⟨n, os, by simp, by simp, ?_⟩
    simp only [Sys.run_append, eS, Sys.run, eS1, a4, a5]
    exact ⟨a1, a2, a3, trivial, trivial⟩

theorem same_tree {s s' : Sys α} {n : Nest α} {k : Nat} (h : Rel false s n)
    (h' : Rel false s' (n.without k)) (hi : s'.b.tree.indexes = s.b.tree.indexes) (hst : n.stack = []) :
    s'.b.tree = s.b.tree := by
  have r1 := h.represents hst
  have r2 := h'.represents (n := n.without k) hst
  obtain ⟨a, b, c⟩ := r2.unique r1
  have hs : s'.b.tree.span = s.b.tree.span := by rw [h.span, h'.span]; rfl
  revert a b c hs hi
  generalize s'.b.tree = t'
  generalize s.b.tree = t
  intro hi a b c d
  cases t; cases t'
  simp_all

/-- C78: a checkpoint that is taken but never used makes no difference: the history with the call of
`checkpoint()` left out (the later checkpoints then have other numbers) builds a tree exactly if the
history with it does, and it is the same tree in every detail. -/
theorem C78_same_tree {pre post : List (Op α)} {t : Tree α} {F : Forest (Lab α)}
    (hroom : (Sys.init.run fl pre).1.b.tree.len < 2 ^ fl.width - 1)
    (hu : ∀ op ∈ post, ∀ d e, ¬ UsesAt op (Sys.init.run fl pre).1.handles.length d e) :
    Built fl (pre ++ .checkpoint :: post) t F ↔
      Built fl (pre ++ post.map (Op.without (Sys.init.run fl pre).1.handles.length)) t F := by
  constructor
  · rintro ⟨n, os, e1, b1, ht⟩
    obtain ⟨n0, os0, hp⟩ := run_prefix (b := _) e1
    rcases unused_both hroom hu hp with ⟨h1, _⟩ | ⟨m, os', h1, h2, h3, h4, h5, _⟩
    · rw [h1] at e1; simp at e1
    · rw [h1] at e1
      simp only [Option.some.injEq, Prod.mk.injEq] at e1
      obtain ⟨rfl, _⟩ := e1
      obtain ⟨hst, rfl⟩ := built_iff.1 b1
      refine ⟨_, _, h2, built_iff.2 ⟨hst, rfl⟩, ?_⟩
      rw [h3.build, if_pos hst] at ht
      have hst' : (m.without (Sys.init.run fl pre).1.handles.length).stack = [] := hst
      rw [h4.build, if_pos hst', same_tree h3 h4 h5 hst, ht]
  · rintro ⟨n, os, e1, b1, ht⟩
    obtain ⟨n0, os0, hp⟩ := run_prefix (b := _) e1
    rcases unused_both hroom hu hp with ⟨_, h1⟩ | ⟨m, os', h1, h2, h3, h4, h5, _⟩
    · rw [h1] at e1; simp at e1
    · rw [h2] at e1
      simp only [Option.some.injEq, Prod.mk.injEq] at e1
      obtain ⟨rfl, _⟩ := e1
      obtain ⟨hst', rfl⟩ := built_iff.1 b1
      have hst : m.stack = [] := hst'
      refine ⟨_, _, h1, built_iff.2 ⟨hst, rfl⟩, ?_⟩
      rw [h4.build, if_pos hst'] at ht
      rw [h3.build, if_pos hst, ← same_tree h3 h4 h5 hst, ht]

/-- C78, the results: all other calls return the same, but for the numbers of the later checkpoints. -/
theorem C78_same_results {pre post : List (Op α)} {t : Tree α} {F : Forest (Lab α)}
    (hroom : (Sys.init.run fl pre).1.b.tree.len < 2 ^ fl.width - 1)
    (hu : ∀ op ∈ post, ∀ d e, ¬ UsesAt op (Sys.init.run fl pre).1.handles.length d e)
    (hb : Built fl (pre ++ .checkpoint :: post) t F) :
    let s := Sys.init.run fl pre
    let k := s.1.handles.length
    ∃ os, (Sys.init.run fl (pre ++ .checkpoint :: post)).2 = s.2 ++ .ok (.handle k) :: os ∧
      (Sys.init.run fl (pre ++ post.map (Op.without k))).2 =
        s.2 ++ os.map (Except.map (Out.without k)) := by
  obtain ⟨n, os, e1, b1, ht⟩ := hb
  obtain ⟨n0, os0, hp⟩ := run_prefix (b := _) e1
  rcases unused_both hroom hu hp with ⟨h1, _⟩ | ⟨m, os', h1, h2, h3, h4, h5, h6, h7⟩
  · rw [h1] at e1; simp at e1
  · exact ⟨os', h6, h7⟩

/-- The second of three checkpoints is not used. -/
theorem unused_post : ∀ op ∈ ([.token 5 1, .checkpoint, .token 6 1, .closeAt 2 7, .closeAt 0 8, .close] :
    List (Op Nat)), ∀ d e, ¬ UsesAt op 1 d e := by
  intro op ho d e hu
  cases hu <;> simp at ho

example : ∃ t F, Built Flavor.default ([.open 1, .checkpoint, .token 2 1, .token 5 1, .checkpoint, .token 6 1,
    .closeAt 1 7, .closeAt 0 8, .close] : List (Op Nat)) t F := by
  have hb : Built Flavor.default (([.open 1, .checkpoint, .token 2 1] : List (Op Nat)) ++ .checkpoint ::
      [.token 5 1, .checkpoint, .token 6 1, .closeAt 2 7, .closeAt 0 8, .close]) _ _ :=
    ⟨_, _, rfl, rfl, rfl⟩
  exact ⟨_, _, (C78_same_tree (pre := [.open 1, .checkpoint, .token 2 1]) (by decide) unused_post).1 hb⟩

example : ∃ os, (Sys.init.run Flavor.default (([.open 1, .checkpoint, .token 2 1] : List (Op Nat)) ++
      .checkpoint :: [.token 5 1, .checkpoint, .token 6 1, .closeAt 2 7, .closeAt 0 8, .close])).2 =
    [.ok (.id 0), .ok (.handle 0), .ok (.id 1), .ok (.handle 1)] ++ os := by
  obtain ⟨os, h, _⟩ := C78_same_results (fl := Flavor.default) (α := Nat)
    (pre := [.open 1, .checkpoint, .token 2 1])
    (post := [.token 5 1, .checkpoint, .token 6 1, .closeAt 2 7, .closeAt 0 8, .close]) (by decide)
    unused_post ⟨_, _, rfl, rfl, rfl⟩
  exact ⟨os, h⟩

end Syntree
