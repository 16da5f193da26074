import Verif.Proof.Late
import Verif.Props.Equal

/-!
# Property C76: deciding late makes no difference

The point of checkpoints: a parser that only learns after the fact that what it has added belongs into
a node makes the same tree as one that knew it beforehand.
-/

namespace Syntree

open Forest

variable {α : Type} {fl : Flavor}

theorem content_relab (ρ : Nat → Nat) (F : Forest (Lab α)) : (F.map (Lab.relab ρ)).content = F.content := by
  induction F with
  | nil => rfl
  | cons x k r ih1 ih2 =>
    simp only [Forest.content, Forest.map] at ih1 ih2 ⊢
    rw [ih1, ih2]; rfl

/-- From one history to the other. -/
theorem late_early_run {pre sub post : List (Op α)} {ts : Tree α} {Fs : Forest (Lab α)} (d : α)
    (hpre : ∀ op ∈ pre, op.cursorDriven = true) (hc : Clean fl sub) (hs : Built fl sub ts Fs)
    (hroom : RoomFor fl ((Sys.init.run fl pre).1.b.tree.len + ts.len + 1)
      (Sys.init.run fl pre).1.b.cursor (textLen fl sub))
    (hpost : ∀ op ∈ post, ∀ j d' e, UsesAt op j d' e → j ≤ (Sys.init.run fl pre).1.handles.length ∨
      (Sys.init.run fl pre).1.handles.length + (Sys.init.run fl sub).1.handles.length < j)
    {n0 : Nest α} {os0 : List (Except Err Out)} (hp : Nest.init.run fl pre = some (n0, os0)) :
    let s := Sys.init.run fl pre
    let k := s.1.handles.length
    let i := s.1.b.tree.len
    let os := (Sys.init.run fl sub).2
    (Nest.init.run fl (decideLate k d pre sub post) = none ∧
      Nest.init.run fl (decideEarly k d pre sub post) = none) ∨
    ∃ m m' osp, Nest.init.run fl (decideLate k d pre sub post) = some (m, s.2 ++
        .ok (.handle k) :: (os.map (Except.map (Out.shift i (k + 1))) ++
          .ok (.id (i + ts.len)) :: osp)) ∧
      Nest.init.run fl (decideEarly k d pre sub post) = some (m', s.2 ++
        .ok (.handle k) :: .ok (.id i) :: (os.map (Except.map (Out.shift (i + 1) (k + 1))) ++
          .ok .unit :: osp)) ∧
      (∃ ρ, m'.cur = m.cur.map (Lab.relab ρ)) ∧ (m'.stack = [] ↔ m.stack = []) ∧ m'.cursor = m.cursor := by
  obtain ⟨ns, oss, es, bs, hts⟩ := hs
  obtain ⟨S, eS, rS⟩ := (Rel.init false).run (g' := false) fl pre hp (by simp)
  obtain ⟨S1, eS1, rS1⟩ := (Rel.init false).run (g' := false) fl sub es (by simp)
  have hlen : S.b.tree.len = n0.count := rS.tree.len
  have hlen1 : S1.b.tree.len = ns.count := rS1.tree.len
  have hk : S.handles.length = n0.marks.length := rS.marks.len
  have hk1 : S1.handles.length = ns.marks.length := rS1.marks.len
  have htl : ts.len = ns.count := by
    rw [eS1] at hts
    simp only [Builder.build] at hts
    split at hts
    · simp at hts
    · rw [← Except.ok.inj hts]; exact hlen1
  simp only [eS, eS1, hlen, rS.cursor, hk, hk1, htl] at hroom hpost ⊢
  obtain ⟨n2, n2', h1, h2, h3⟩ := late_early (fl := fl) d hpre hp hc.1 es
    (by have := hc.2; rw [eS1] at this; exact this) (built_iff.1 bs).1 hroom.1 hroom.2
  have eL : decideLate n0.marks.length d pre sub post = decideLate n0.marks.length d pre sub [] ++ post := by
    simp [decideLate]
  have eE : decideEarly n0.marks.length d pre sub post = decideEarly n0.marks.length d pre sub [] ++ post := by
    simp [decideEarly]
  rw [eL, eE, Nest.run_append, Nest.run_append, h1, h2]
  rcases h3.run (fl := fl) (ops := post) (fun op ho j d' e hu => by
      have := hpost op ho j d' e hu; omega) with ⟨q1, q2⟩ | ⟨m, m', osp, q1, q2, q3⟩
  · left; simp only [q1, q2]; exact ⟨trivial, trivial⟩
  · right
    refine ⟨m, m', osp, by simp [q1], by simp [q2], ⟨_, q3.cur⟩, ?_, q3.cursor⟩
    rw [q3.stack, relStack]
    simp

/-- C76: let `pre` be calls without explicit spans, and `sub` calls that work on a new builder and close
what they open. To take a checkpoint before `sub` and use it right after with `close_at`, or to open the
node before `sub` and close it after, makes no difference: for any calls `post` made afterwards that do
not use the checkpoints taken in `sub`, if there is room, one history builds a tree exactly if the
other does, and the two trees are equal. -/
theorem C76_same_tree [DecidableEq α] {pre sub post : List (Op α)} {ts : Tree α} {Fs : Forest (Lab α)}
    (d : α) (hpre : ∀ op ∈ pre, op.cursorDriven = true) (hc : Clean fl sub) (hs : Built fl sub ts Fs)
    (hroom : RoomFor fl ((Sys.init.run fl pre).1.b.tree.len + ts.len + 1)
      (Sys.init.run fl pre).1.b.cursor (textLen fl sub))
    (hpost : ∀ op ∈ post, ∀ j d' e, UsesAt op j d' e → j ≤ (Sys.init.run fl pre).1.handles.length ∨
      (Sys.init.run fl pre).1.handles.length + (Sys.init.run fl sub).1.handles.length < j) :
    let k := (Sys.init.run fl pre).1.handles.length
    (∀ t F, Built fl (decideLate k d pre sub post) t F →
      ∃ t' F', Built fl (decideEarly k d pre sub post) t' F' ∧ t.eq t' = some true ∧
        F'.content = F.content) ∧
    (∀ t' F', Built fl (decideEarly k d pre sub post) t' F' →
      ∃ t F, Built fl (decideLate k d pre sub post) t F ∧ t.eq t' = some true ∧
        F'.content = F.content) := by
  intro k
  constructor
  · intro t F hb
    have hb' := hb
    obtain ⟨n, os, e1, b1, _⟩ := hb'
    obtain ⟨n0, os0, hp⟩ := run_prefix (b := _) e1
    rcases late_early_run d hpre hc hs hroom hpost hp with ⟨h1, _⟩ | ⟨m, m', osp, h1, h2, ⟨ρ, h3⟩, h4, _⟩
    · rw [h1] at e1; simp at e1
    · rw [h1] at e1
      simp only [Option.some.injEq, Prod.mk.injEq] at e1
      obtain ⟨rfl, _⟩ := e1
      obtain ⟨hst, rfl⟩ := built_iff.1 b1
      obtain ⟨t', ht'⟩ := Built.of_nest h2 (h4.2 hst)
      have hcon : m'.cur.content = m.cur.content := by rw [h3, content_relab]
      refine ⟨t', _, ht', ?_, hcon⟩
      rw [C39_eq_iff_same_forest (.built hb) (.built ht'), hcon]; simp
  · intro t' F' hb
    have hb' := hb
    obtain ⟨n, os, e1, b1, _⟩ := hb'
    obtain ⟨n0, os0, hp⟩ := run_prefix (b := _) e1
    rcases late_early_run d hpre hc hs hroom hpost hp with ⟨_, h1⟩ | ⟨m, m', osp, h1, h2, ⟨ρ, h3⟩, h4, _⟩
    · rw [h1] at e1; simp at e1
    · rw [h2] at e1
      simp only [Option.some.injEq, Prod.mk.injEq] at e1
      obtain ⟨rfl, _⟩ := e1
      obtain ⟨hst, rfl⟩ := built_iff.1 b1
      obtain ⟨t, ht⟩ := Built.of_nest h1 (h4.1 hst)
      have hcon : m'.cur.content = m.cur.content := by rw [h3, content_relab]
      refine ⟨t, _, ht, ?_, hcon⟩
      rw [C39_eq_iff_same_forest (.built ht) (.built hb), hcon]; simp

/-- C76, the results of the calls: only the ids of the nodes that are wrapped differ (by one), and the id
of the wrapper is returned by another call. Every later call returns the same, and the cursor is the
same. -/
theorem C76_same_results {pre sub post : List (Op α)} {ts t : Tree α} {Fs F : Forest (Lab α)}
    (d : α) (hpre : ∀ op ∈ pre, op.cursorDriven = true) (hc : Clean fl sub) (hs : Built fl sub ts Fs)
    (hroom : RoomFor fl ((Sys.init.run fl pre).1.b.tree.len + ts.len + 1)
      (Sys.init.run fl pre).1.b.cursor (textLen fl sub))
    (hpost : ∀ op ∈ post, ∀ j d' e, UsesAt op j d' e → j ≤ (Sys.init.run fl pre).1.handles.length ∨
      (Sys.init.run fl pre).1.handles.length + (Sys.init.run fl sub).1.handles.length < j)
    (hb : Built fl (decideLate (Sys.init.run fl pre).1.handles.length d pre sub post) t F) :
    let s := Sys.init.run fl pre
    let k := s.1.handles.length
    let i := s.1.b.tree.len
    let os := (Sys.init.run fl sub).2
    let late := Sys.init.run fl (decideLate k d pre sub post)
    let early := Sys.init.run fl (decideEarly k d pre sub post)
    late.1.b.cursor = early.1.b.cursor ∧
    ∃ osp, late.2 = s.2 ++ .ok (.handle k) :: (os.map (Except.map (Out.shift i (k + 1))) ++
          .ok (.id (i + ts.len)) :: osp) ∧
      early.2 = s.2 ++ .ok (.handle k) :: .ok (.id i) ::
        (os.map (Except.map (Out.shift (i + 1) (k + 1))) ++ .ok .unit :: osp) := by
  obtain ⟨n, os, e1, b1, _⟩ := hb
  obtain ⟨n0, os0, hp⟩ := run_prefix (b := _) e1
  rcases late_early_run d hpre hc hs hroom hpost hp with ⟨h1, _⟩ | ⟨m, m', osp, h1, h2, _, _, h5⟩
  · rw [h1] at e1; simp at e1
  · obtain ⟨S, eS, rS⟩ := (Rel.init false).run (g' := false) fl _ h1 (by simp)
    obtain ⟨S', eS', rS'⟩ := (Rel.init false).run (g' := false) fl _ h2 (by simp)
    intro s k i os late early
    refine ⟨?_, osp, ?_, ?_⟩
    · show (Sys.init.run fl _).1.b.cursor = (Sys.init.run fl _).1.b.cursor
      rw [eS, eS', rS.cursor, rS'.cursor, h5]
    · show (Sys.init.run fl _).2 = _
      rw [eS]
    · show (Sys.init.run fl _).2 = _
      rw [eS']

/-! A parser that has opened a node, added a token and taken a checkpoint; `sub` takes one itself and
wraps two tokens. Afterwards a token is added, and both outer checkpoints are used. -/

theorem late_clean : Clean Flavor.default ([.checkpoint, .token 2 3, .token 3 1, .closeAt 0 4] : List (Op Nat)) :=
  ⟨by decide, by
    intro o ho
    have : o ∈ [Except.ok (Out.handle 0), .ok (.id 0), .ok (.id 1), .ok (.id 2)] := ho
    simp only [List.mem_cons, List.not_mem_nil, or_false] at this
    rcases this with h | h | h | h <;> exact ⟨_, h⟩⟩

theorem late_post : ∀ op ∈ ([.token 5 1, .closeAt 1 7, .closeAt 0 8, .close] : List (Op Nat)),
    ∀ j d' e, UsesAt op j d' e → j ≤ 1 ∨ 2 < j := by
  intro op ho j d' e hu
  cases hu <;> simp at ho <;> omega

theorem late_room : RoomFor Flavor.default 6 2 4 :=
  ⟨by decide, by
    intro w hw
    have : w = 32 := by simpa [Flavor.default] using hw.symm
    subst this
    decide⟩

example : ∃ t t' F F', Built Flavor.default (decideLate 1 6 [.open 1, .token 9 2, .checkpoint]
      [.checkpoint, .token 2 3, .token 3 1, .closeAt 0 4]
      [.token 5 1, .closeAt 1 7, .closeAt 0 8, .close] : List (Op Nat)) t F ∧
    Built Flavor.default (decideEarly 1 6 [.open 1, .token 9 2, .checkpoint]
      [.checkpoint, .token 2 3, .token 3 1, .closeAt 0 4]
      [.token 5 1, .closeAt 1 7, .closeAt 0 8, .close] : List (Op Nat)) t' F' ∧ t.eq t' = some true := by
  have h := (C76_same_tree (fl := Flavor.default) (α := Nat)
    (pre := [.open 1, .token 9 2, .checkpoint])
    (sub := [.checkpoint, .token 2 3, .token 3 1, .closeAt 0 4])
    (post := [.token 5 1, .closeAt 1 7, .closeAt 0 8, .close]) 6 (by decide) late_clean
    ⟨_, _, rfl, rfl, rfl⟩ late_room late_post).1
  have hk : (Sys.init.run Flavor.default ([.open 1, .token 9 2, .checkpoint] : List (Op Nat))).1.handles.length = 1 := rfl
  rw [hk] at h
  have hb : Built Flavor.default (decideLate 1 6 [.open 1, .token 9 2, .checkpoint]
      [.checkpoint, .token 2 3, .token 3 1, .closeAt 0 4]
      [.token 5 1, .closeAt 1 7, .closeAt 0 8, .close] : List (Op Nat)) _ _ := ⟨_, _, rfl, rfl, rfl⟩
  obtain ⟨t', F', h1, h2, _⟩ := h _ _ hb
  exact ⟨_, t', _, F', hb, h1, h2⟩

/-- Both histories end with the cursor at the end of the text. -/
example : (Sys.init.run Flavor.default (decideEarly 1 6 [.open 1, .token 9 2, .checkpoint]
      [.checkpoint, .token 2 3, .token 3 1, .closeAt 0 4]
      [.token 5 1, .closeAt 1 7, .closeAt 0 8, .close] : List (Op Nat))).1.b.cursor = 7 := by
  have h := (C76_same_results (fl := Flavor.default) (α := Nat)
    (pre := [.open 1, .token 9 2, .checkpoint])
    (sub := [.checkpoint, .token 2 3, .token 3 1, .closeAt 0 4])
    (post := [.token 5 1, .closeAt 1 7, .closeAt 0 8, .close]) 6 (by decide) late_clean
    ⟨_, _, rfl, rfl, rfl⟩ late_room late_post ⟨_, _, rfl, rfl, rfl⟩).1
  have hk : (Sys.init.run Flavor.default ([.open 1, .token 9 2, .checkpoint] : List (Op Nat))).1.handles.length = 1 := rfl
  simp only [hk] at h
  rw [← h]
  rfl

end Syntree
