import Verif.Proof.Context
import Verif.Proof.Bridge

/-!
# Property C72: calls build the same wherever they are made

A recursive descent parser relies on this: what a parsing function does to the builder can be
understood by looking at what it does to a new builder.
-/

namespace Syntree

open Forest

variable {α : Type} {fl : Flavor}

/-- C72: let `sub` be a history of calls (without explicit spans) that all succeed on a new builder
and close every node they open; it builds the nested list `Fs`. Then, after any history `pre`, if there
is room, the same calls return the same results, counting ids and checkpoints from those of `pre`; the
cursor advances by the same amount; the node being built is the same as before; and what has been
built so far, `cur` on the innermost level, is continued with `Fs`, counting ids and positions from
those after `pre`. The nodes around it stay, but for the span of the innermost one. (`F1` and `F2` are
the nested lists one gets by closing the open nodes before and after `sub`.) -/
theorem C72_same_in_any_context {pre sub : List (Op α)} {ts t1 : Tree α} {Fs F1 : Forest (Lab α)}
    {m : Nat} (hc : Clean fl sub) (hs : Built fl sub ts Fs)
    (h1 : Built fl (pre ++ List.replicate m .close) t1 F1)
    (hroom : RoomFor fl ((Sys.init.run fl pre).1.b.tree.len + ts.len) (Sys.init.run fl pre).1.b.cursor
      (textLen fl sub)) :
    let s := Sys.init.run fl pre
    let k := s.1.handles.length
    let i := s.1.b.tree.len
    let sub' := sub.map (Op.shift k)
    let s' := Sys.init.run fl (pre ++ sub')
    s'.2 = s.2 ++ (Sys.init.run fl sub).2.map (Except.map (Out.shift i k)) ∧
    s'.1.b.cursor = s.1.b.cursor + (Sys.init.run fl sub).1.b.cursor ∧
    building fl (pre ++ sub') = building fl pre ∧
    ∃ t2 F2, Built fl (pre ++ sub' ++ List.replicate m .close) t2 F2 ∧
      ∃ c c' cur, F1 = Ctx.plug c cur ∧
        F2 = Ctx.plug c' (cur ++ Fs.map (Lab.shift i s.1.b.cursor)) ∧ Ctx.bare c' = Ctx.bare c := by
  obtain ⟨n1, os1, e1, b1, _⟩ := h1
  obtain ⟨ns, oss, es, bs, hts⟩ := hs
  rw [Nest.run_append] at e1
  cases hp : Nest.init.run fl pre with
  | none => rw [hp] at e1; simp at e1
  | some q =>
    obtain ⟨n0, os0⟩ := q
    rw [hp] at e1
    simp only at e1
    obtain ⟨S, eS, rS⟩ := (Rel.init false).run (g' := false) fl pre hp (by simp)
    obtain ⟨S1, eS1, rS1⟩ := (Rel.init false).run (g' := false) fl sub es (by simp)
    have hlen : S.b.tree.len = n0.count := rS.tree.len
    have hlen1 : S1.b.tree.len = ns.count := rS1.tree.len
    have hk : S.handles.length = n0.marks.length := rS.marks.len
    simp only [eS, eS1, hlen, rS.cursor, rS1.cursor, hk] at hroom ⊢
    have htl : ts.len = ns.count := by
      rw [eS1] at hts
      simp only [Builder.build] at hts
      split at hts
      · simp at hts
      · rw [← Except.ok.inj hts]; exact hlen1
    rw [htl] at hroom
    have hreach : Reach fl n0 := ⟨_, _, hp⟩
    obtain ⟨n2, e2, w2⟩ := (Placed.init n0).run (fl := fl) (A := 0) hreach.outer hc.1 es
      (by have := hc.2; rw [eS1] at this; exact this) (by have := hroom.1; omega)
      ⟨Nat.le_refl _, by simp [Nest.init]⟩ (by intro w hw; have := hroom.2 w hw; omega)
    have hr2 : Nest.init.run fl (pre ++ sub.map (Op.shift n0.marks.length)) = some (n2, os0 ++
        oss.map (Except.map (Out.shift n0.count n0.marks.length))) := by
      rw [Nest.run_append, hp]; simp only [e2]
    obtain ⟨S2, eS2, rS2⟩ := (Rel.init false).run (g' := false) fl _ hr2 (by simp)
    obtain ⟨hst, rfl⟩ := built_iff.1 bs
    obtain ⟨st0, p1, p2⟩ := w2.stack
    rw [hst] at p2
    simp only [embStack, List.nil_append] at p2
    obtain ⟨m3, o3, hq3, hl3⟩ := closes_run fl m n2
    obtain ⟨m1, o1, hq, hl1⟩ := closes_run fl m n0
    rw [hq] at e1
    simp only [Option.some.injEq, Prod.mk.injEq] at e1
    obtain ⟨rfl, _⟩ := e1
    obtain ⟨s1, rfl⟩ := built_iff.1 b1
    have s3 : m3.stack = [] := by
      have h4 : n2.stack.length = n0.stack.length := by
        rw [p2]
        have := congrArg List.length p1
        simpa [plainStack] using this
      rw [h4, ← hl1, s1] at hl3
      exact List.eq_nil_of_length_eq_zero hl3
    have hr3 : Nest.init.run fl (pre ++ sub.map (Op.shift n0.marks.length) ++ List.replicate m .close) =
        some (m3, (os0 ++ oss.map (Except.map (Out.shift n0.count n0.marks.length))) ++ o3) := by
      rw [Nest.run_append, hr2]; simp only [hq3]
    obtain ⟨S3, eS3, rS3⟩ := (Rel.init false).run (g' := false) fl _ hr3 (by simp)
    refine ⟨by rw [eS2], ?_, ?_, S3.b.tree, m3.cur, ⟨m3, _, hr3, built_iff.2 ⟨s3, rfl⟩, ?_⟩, ?_⟩
    · rw [eS2, rS2.cursor, w2.cursor, Nat.add_comm]
    · rw [building_eq hr2, building_eq hp, w2.frame, frame_empty.2 hst]
    · rw [eS3, rS3.build, if_pos s3]
    · refine ⟨closeCtx m n0.stack, closeCtx m n2.stack, n0.cur, run_closes m hq s1, ?_, ?_⟩
      · rw [run_closes m hq3 s3, w2.cur]
        simp [embCur, hst]
      · rw [p2]
        exact closeCtx_bare m _ _ p1

/-- A sub-parser that makes `(4 2 3)` by wrapping two tokens, run on the second level after a node, a
token and a checkpoint. -/
example : ∃ t2 F2, Built Flavor.default ([.open 1, .token 9 2, .checkpoint] ++
      [.checkpoint, .token 2 3, .token 3 1, .closeAt 1 4] ++ List.replicate 1 .close) t2 F2 ∧
      ∃ c c' cur, Forest.single ⟨0, 1, ⟨0, 2⟩⟩ (.leaf ⟨1, 9, ⟨0, 2⟩⟩) = Ctx.plug c cur ∧
        F2 = Ctx.plug c' (cur ++ .single ⟨4, 4, ⟨2, 6⟩⟩ (.cons ⟨2, 2, ⟨2, 5⟩⟩ .nil (.leaf ⟨3, 3, ⟨5, 6⟩⟩)))
        ∧ Ctx.bare c' = Ctx.bare c :=
  (C72_same_in_any_context (fl := Flavor.default) (α := Nat) (m := 1)
    (pre := [.open 1, .token 9 2, .checkpoint])
    (sub := [.checkpoint, .token 2 3, .token 3 1, .closeAt 0 4])
    ⟨by decide, by
      intro o ho
      have : o ∈ [Except.ok (Out.handle 0), .ok (.id 0), .ok (.id 1), .ok (.id 2)] := ho
      simp only [List.mem_cons, List.not_mem_nil, or_false] at this
      rcases this with h | h | h | h <;> exact ⟨_, h⟩⟩
    ⟨_, _, rfl, rfl, rfl⟩ ⟨_, _, rfl, rfl, rfl⟩
    ⟨by decide, by
      intro w hw
      have : w = 32 := by simpa [Flavor.default] using hw.symm
      subst this
      decide⟩).2.2.2

end Syntree
