import Verif.Model.Bench
import Verif.Proof.Macro
import Verif.Proof.Hist
import Verif.Proof.Bridge

namespace Syntree.Bench

open Forest

variable {α : Type} {fl : Flavor}

theorem cycleFrom_get {β : Type} (items : List β) (hi : items ≠ []) (n : Nat) :
    ∀ (done rest : List β), items = done ++ rest → ∀ i, i < n →
      (cycleFrom items n rest)[i]? = items[(done.length + i) % items.length]? := by
  induction n with
  | zero => intro _ _ _ i h; omega
  | succ n ih =>
    intro done rest e i h
    cases rest with
    | cons x rest =>
      have hlen : items.length = done.length + (rest.length + 1) := by rw [e]; simp
      cases i with
      | zero =>
        simp only [cycleFrom, List.getElem?_cons_zero, Nat.add_zero]
        rw [Nat.mod_eq_of_lt (by omega), e]
        simp
      | succ i =>
        simp only [cycleFrom, List.getElem?_cons_succ]
        rw [ih (done ++ [x]) rest (by rw [e]; simp) i (by omega)]
        simp only [List.length_append, List.length_cons, List.length_nil]
        congr 2; omega
    | nil =>
      cases items with
      | nil => exact absurd rfl hi
      | cons x rest =>
        have hd : done.length = rest.length + 1 := by
          have := congrArg List.length e; simpa using this.symm
        cases i with
        | zero => simp [cycleFrom, hd]
        | succ i =>
          simp only [cycleFrom, List.getElem?_cons_succ]
          rw [ih [x] rest rfl i (by omega), hd]
          simp only [List.length_cons, List.length_nil]
          congr 1
          rw [show rest.length + 1 + (i + 1) = 0 + 1 + i + (rest.length + 1) by omega, Nat.add_mod_right]

theorem cycleFrom_length {β : Type} (items : List β) (hi : items ≠ []) (n : Nat) :
    ∀ rest, (cycleFrom items n rest).length = n := by
  induction n with
  | zero => intro _; rfl
  | succ n ih =>
    intro rest
    cases rest with
    | cons x rest => simp [cycleFrom, ih]
    | nil =>
      cases items with
      | nil => exact absurd rfl hi
      | cons x rest => simp [cycleFrom, ih]

theorem layout_head {lit : Lit α} (hp : lit.plain = true) (ik : IndexKind) (pos i : Nat) :
    lit = .nil ∨ ((lit.layout ik pos i).head?.map (·.span.start)) = some pos := by
  cases lit <;> simp [Lit.plain, Lit.layout, head?, tops] at *

theorem layout_last {lit : Lit α} (ik : IndexKind) : lit.plain = true → ∀ pos i,
    lit = .nil ∨ ((lit.layout ik pos i).last?.map (·.span.stop)) = some (pos + lit.len ik) := by
  have key : ∀ (x : Lab α) (k r : Forest (Lab α)) (lit : Lit α) (p i : Nat), r = lit.layout ik p i →
      (lit = .nil ∨ r.last?.map (·.span.stop) = some (p + lit.len ik)) → x.span.stop = p →
      (Forest.cons x k r).last?.map (·.span.stop) = some (p + lit.len ik) := by
    intro x k r lit p i e h hx
    rcases h with rfl | h
    · subst e
      simp [Lit.layout, last?, tops, Lit.len, hx]
    · rw [← h]
      have : r.tops ≠ [] := by
        intro h0; simp [last?, h0] at h
      simp [last?, tops, List.getLast?_cons]
      cases hl : r.tops.getLast? with
      | none => exact absurd (List.getLast?_eq_none_iff.1 hl) this
      | some y => simp
  induction lit with
  | nil => intro _ _ _; exact .inl rfl
  | nodeWith => intro h; simp [Lit.plain] at h
  | tokenWith => intro h; simp [Lit.plain] at h
  | node d k r _ ihr =>
    intro h pos i
    simp only [Lit.plain, Bool.and_eq_true] at h
    right
    simp only [Lit.layout, Lit.len]
    rw [key _ _ _ r _ _ rfl (ihr h.2 _ _) rfl]
    simp [Nat.add_assoc]
  | token d n r ihr =>
    intro h pos i
    right
    simp only [Lit.layout, Lit.len]
    rw [key _ _ _ r _ _ rfl (ihr h _ _) rfl]
    simp [Nat.add_assoc]
  | tokenEmpty d r ihr =>
    intro h pos i
    right
    simp only [Lit.layout, Lit.len]
    rw [key _ _ _ r _ _ rfl (ihr h _ _) rfl]

theorem framed_eq (calls : List (Op α)) (d : α) :
    framed fl calls d = match firstErr (Sys.init.run fl (.checkpoint :: (calls ++ [.closeAt 0 d]))).2 with
      | none => (Sys.init.run fl (.checkpoint :: (calls ++ [.closeAt 0 d]))).1.b.build
      | some e => .error e := by
  unfold framed
  rw [Sys.tryRun_eq]
  cases firstErr (Sys.init.run fl (.checkpoint :: (calls ++ [.closeAt 0 d]))).2 <;> rfl

/-- The frame around a literal. -/
theorem framed_lit (lit : Lit α) (d : α) (hp : lit.plain = true) :
    (lit.count + 1 ≤ 2 ^ fl.width - 1 ∧ Lit.Addressable fl.ik (lit.len fl.ik) →
      ∃ t, framed fl lit.calls d = .ok t ∧
        Built fl (.checkpoint :: (lit.calls ++ [.closeAt 0 d])) t
          (single ⟨lit.count, d, ⟨0, lit.len fl.ik⟩⟩ (lit.layout fl.ik 0 0)) ∧
        t.len = lit.count + 1 ∧ t.span = ⟨0, lit.len fl.ik⟩) ∧
    (¬ (lit.count + 1 ≤ 2 ^ fl.width - 1 ∧ Lit.Addressable fl.ik (lit.len fl.ik)) →
      framed fl lit.calls d = .error .overflow) := by
  have ha0 : Lit.Addressable fl.ik 0 := by
    cases fl.ik with
    | empty => trivial
    | bits w => exact Nat.two_pow_pos w
  by_cases hc : 2 ^ fl.width - 1 ≤ 0
  · -- not even a checkpoint
    have hstep : (Nest.init (α := α)).step fl .checkpoint = some (Nest.init, .error .overflow) := by
      simp [Nest.step, Nest.full, Nest.init, hc]
    refine ⟨fun h => by omega, fun _ => ?_⟩
    obtain ⟨s, e, _⟩ := (Rel.init false).run (g' := false) (n' := Nest.init) fl [Op.checkpoint]
      (Nest.run_cons hstep rfl) (by simp)
    rw [framed_eq, show Op.checkpoint :: (lit.calls ++ [.closeAt 0 d]) =
      [Op.checkpoint] ++ (lit.calls ++ [.closeAt 0 d]) from rfl, Sys.run_append, e]
    simp [firstErr]
  · have hfull : (Nest.init (α := α)).full fl = false := by
      exact decide_eq_false hc
    have hstep : (Nest.init (α := α)).step fl .checkpoint =
        some ({ (Nest.init (α := α)) with marks := [⟨none, 0, true⟩] }, .ok (.handle 0)) := by
      simp only [Nest.step, hfull]; rfl
    obtain ⟨n', os, h1, h⟩ := lit.run_plain (fl := fl)
      { (Nest.init (α := α)) with marks := [⟨none, 0, true⟩] } hp rfl trivial (Nat.zero_le _) ha0
    have h1' := Nest.run_cons hstep h1
    have hpre : Op.checkpoint :: (lit.calls ++ [.closeAt 0 d]) =
      (Op.checkpoint :: lit.calls) ++ [.closeAt 0 d] := rfl
    have hfail : firstErr os = some .overflow → framed fl lit.calls d = .error .overflow := by
      intro he
      obtain ⟨s, e, _⟩ := (Rel.init false).run (g' := false) fl _ h1' (by simp)
      rw [framed_eq, hpre, Sys.run_append, e]
      simp only [List.cons_append, firstErr, firstErr_append, he]
    rcases h with ⟨a, b, h3, h4⟩ | ⟨h2, h3⟩
    · simp only [Nest.init, Nat.zero_add] at a b
      have hst : n'.stack = [] := by rw [h4]; rfl
      have hcur : n'.cur = lit.layout fl.ik 0 0 := by rw [h4]; rfl
      have hcnt : n'.count = lit.count := by rw [h4]; simp [Lit.after, Nest.init]
      have hcu : n'.cursor = lit.len fl.ik := by rw [h4]; simp [Lit.after, Nest.init]
      have hm : n'.marks[0]? = some ⟨none, 0, true⟩ := by rw [h4]; rfl
      have hfr : n'.frame = none := by rw [Nest.frame, hst]; rfl
      by_cases hroom : lit.count + 1 ≤ 2 ^ fl.width - 1
      · refine ⟨fun _ => ?_, fun h => absurd ⟨hroom, b⟩ h⟩
        have hnf : n'.full fl = false := by
          simp only [Nest.full, hcnt, decide_eq_false_iff_not]; omega
        have hcl : n'.step fl (.closeAt 0 d) = some (n'.wrap 0 d none, .ok (.id lit.count)) := by
          simp only [Nest.step, Nest.closeAt, hm, hfr, hnf, hcnt]
          rfl
        have hrun := Nest.run_app h1' (Nest.run_cons hcl (by rfl : Nest.run fl (n'.wrap 0 d none) [] = _))
        rw [← hpre] at hrun
        obtain ⟨s, e, r⟩ := (Rel.init false).run (g' := false) fl _ hrun (by simp)
        have hw : (n'.wrap 0 d none).stack = [] ∧ (n'.wrap 0 d none).cur =
            single ⟨lit.count, d, ⟨0, lit.len fl.ik⟩⟩ (lit.layout fl.ik 0 0) ∧
            (n'.wrap 0 d none).count = lit.count + 1 ∧ (n'.wrap 0 d none).stop = lit.len fl.ik := by
          have hstop : n'.stop = lit.len fl.ik := by rw [h4]; simp [Lit.after, Nest.init]
          have hdrop : n'.cur.drop 0 = n'.cur := rfl
          unfold Nest.wrap
          rw [hdrop, hcur]
          by_cases hnil : lit = .nil
          · subst hnil
            simp only [Lit.layout, isNil, if_true, Nest.addLeaf, hst, Nest.endParent, hcur, hcnt, hcu,
              hstop]
            refine ⟨trivial, ?_, trivial, trivial⟩
            simp [Lit.len, Span.point]
          · have hin : (lit.layout fl.ik 0 0).isNil = false := by
              cases lit <;> first | rfl | exact absurd rfl hnil
            have e1 := (layout_head hp fl.ik 0 0).resolve_left hnil
            have e2 := (layout_last fl.ik hp 0 0).resolve_left hnil
            have hs : Nest.stretch (lit.layout fl.ik 0 0) = ⟨0, lit.len fl.ik⟩ := by
              simp only [Nest.stretch, e1, e2]; simp
            simp only [hin, hst, hcnt, hstop, Option.getD_none, hs]
            exact ⟨rfl, rfl, rfl, rfl⟩
        have hb : s.b.build = .ok s.b.tree := by rw [r.build, if_pos hw.1]
        have hB : Built fl (.checkpoint :: (lit.calls ++ [.closeAt 0 d])) s.b.tree
            (single ⟨lit.count, d, ⟨0, lit.len fl.ik⟩⟩ (lit.layout fl.ik 0 0)) :=
          ⟨_, _, hrun, built_iff.2 ⟨hw.1, hw.2.1⟩, by rw [e]; exact hb⟩
        refine ⟨s.b.tree, ?_, hB, ?_, ?_⟩
        · rw [framed_eq, e]
          simp only [List.cons_append, firstErr, firstErr_append, h3]
          exact hb
        · show s.b.tree.nodes.length = _
          rw [r.tree.len, hw.2.2.1]
        · rw [r.span, hw.2.2.2]
      · refine ⟨fun h => absurd h.1 hroom, fun _ => ?_⟩
        have hnf : n'.full fl = true := by
          simp only [Nest.full, hcnt, decide_eq_true_eq]; omega
        have hcl : n'.step fl (.closeAt 0 d) = some (n', .error .overflow) := by
          simp only [Nest.step, Nest.closeAt, hm, hfr, hnf]
          rfl
        have hrun := Nest.run_app h1' (Nest.run_cons hcl (by rfl : Nest.run fl n' [] = _))
        rw [← hpre] at hrun
        obtain ⟨s, e, r⟩ := (Rel.init false).run (g' := false) fl _ hrun (by simp)
        rw [framed_eq, e]
        simp only [List.cons_append, firstErr, firstErr_append, h3]
    · refine ⟨fun ⟨a, b⟩ => absurd ⟨by simp only [Nest.init]; omega, by simpa [Nest.init] using b⟩ h2,
        fun _ => hfail h3⟩

theorem flatMap_same {β γ : Type} {l : List β} {f g : β → List γ} (h : ∀ x ∈ l, f x = g x) :
    l.flatMap f = l.flatMap g := by
  induction l with
  | nil => rfl
  | cons x l ih =>
    rw [List.flatMap_cons, List.flatMap_cons, h x (by simp), ih fun y hy => h y (by simp [hy])]

/-- The strings as the items of a literal. -/
def flatLit : List Text → Lit Syn
  | [] => .nil
  | s :: ss => .token .string (Text.bytes s) (flatLit ss)

/-- The entries as the items of a literal. -/
def entryLit : List Text → Lit Syn
  | [] => .nil
  | s :: ss => .node .entry (.token .string (Text.bytes s) .nil) (.token .whitespace 1 (entryLit ss))

theorem flatLit_facts (ik : IndexKind) (ss : List Text) : (flatLit ss).plain = true ∧
    (flatLit ss).count = ss.length ∧
    (flatLit ss).calls = ss.map (fun s => .token .string (Text.bytes s)) ∧
    (flatLit ss).len ik = (ss.map fun s => Lit.tokenLen ik (Text.bytes s)).sum ∧
    ∀ pos i, ((flatLit ss).layout ik pos i).topIds = List.range' i ss.length ∧
      ∀ j, j < ss.length → ∃ left right, (flatLit ss).layout ik pos i = left ++ .cons ⟨i + j, .string,
        ⟨pos + ((ss.take j).map fun s => Lit.tokenLen ik (Text.bytes s)).sum,
          pos + ((ss.take (j + 1)).map fun s => Lit.tokenLen ik (Text.bytes s)).sum⟩⟩ .nil right := by
  induction ss with
  | nil => exact ⟨rfl, rfl, rfl, rfl, fun _ _ => ⟨rfl, fun j hj => by simp at hj⟩⟩
  | cons s ss ih =>
    obtain ⟨h1, h2, h3, h4, h5⟩ := ih
    refine ⟨h1, by simp [flatLit, Lit.count, h2]; omega, by simp [flatLit, Lit.calls, h3],
      by simp [flatLit, Lit.len, h4], fun pos i => ⟨?_, ?_⟩⟩
    · simp only [flatLit, Lit.layout, topIds, tops, List.map_cons, List.length_cons, List.range'_succ]
      rw [← (h5 (pos + Lit.tokenLen ik (Text.bytes s)) (i + 1)).1]
      rfl
    · intro j hj
      cases j with
      | zero => exact ⟨.nil, _, by simp [flatLit, Lit.layout]; rfl⟩
      | succ j =>
        obtain ⟨left, right, e⟩ := (h5 (pos + Lit.tokenLen ik (Text.bytes s)) (i + 1)).2 j
          (by simpa using hj)
        refine ⟨.cons ⟨i, .string, ⟨pos, pos + Lit.tokenLen ik (Text.bytes s)⟩⟩ .nil left, right, ?_⟩
        simp only [flatLit, Lit.layout, e, List.take_succ_cons, List.map_cons, List.sum_cons]
        rw [show i + 1 + j = i + (j + 1) by omega, Nat.add_assoc pos, Nat.add_assoc pos]
        rfl

theorem entryLit_facts (ik : IndexKind) (ss : List Text) : (entryLit ss).plain = true ∧
    (entryLit ss).count = 3 * ss.length ∧
    (entryLit ss).calls = ss.flatMap (fun s =>
      [.open .entry, .token .string (Text.bytes s), .close, .token .whitespace 1]) ∧
    (entryLit ss).len ik =
      (ss.map fun s => Lit.tokenLen ik (Text.bytes s) + Lit.tokenLen ik 1).sum ∧
    ∀ pos i, ((entryLit ss).layout ik pos i).topIds =
        (List.range ss.length).flatMap (fun j => [i + 3 * j, i + (3 * j + 2)]) ∧
      ∀ j, (hj : j < ss.length) → ∃ left right,
        let p := pos + ((ss.take j).map fun s => Lit.tokenLen ik (Text.bytes s) + Lit.tokenLen ik 1).sum
        let q := p + Lit.tokenLen ik (Text.bytes ss[j])
        (entryLit ss).layout ik pos i = left ++ .cons ⟨i + 3 * j, .entry, ⟨p, q⟩⟩
          (leaf ⟨i + (3 * j + 1), .string, ⟨p, q⟩⟩)
          (.cons ⟨i + (3 * j + 2), .whitespace, ⟨q, q + Lit.tokenLen ik 1⟩⟩ .nil right) := by
  induction ss with
  | nil => exact ⟨rfl, rfl, rfl, rfl, fun _ _ => ⟨rfl, fun j hj => by simp at hj⟩⟩
  | cons s ss ih =>
    obtain ⟨h1, h2, h3, h4, h5⟩ := ih
    refine ⟨by simp [entryLit, Lit.plain, h1], by simp [entryLit, Lit.count, h2]; omega,
      by simp [entryLit, Lit.calls, h3], by simp [entryLit, Lit.len, h4, Nat.add_assoc],
      fun pos i => ⟨?_, ?_⟩⟩
    · have := (h5 (pos + Lit.tokenLen ik (Text.bytes s) + Lit.tokenLen ik 1) (i + 3)).1
      simp only [topIds] at this ⊢
      simp only [entryLit, Lit.layout, Lit.len, Lit.count, tops, List.map_cons, List.length_cons,
        List.range_succ_eq_map, List.flatMap_cons, List.flatMap_map, Nat.mul_zero, Nat.add_zero,
        List.cons_append, List.nil_append]
      rw [show i + 1 + 1 + 1 = i + 3 by omega, this]
      refine congrArg _ (congrArg _ ?_)
      refine flatMap_same ?_
      intro j _
      simp only [List.cons.injEq, and_true]
      omega
    · intro j hj
      cases j with
      | zero =>
        refine ⟨.nil, (entryLit ss).layout ik (pos + Lit.tokenLen ik (Text.bytes s) +
          Lit.tokenLen ik 1) (i + 3), ?_⟩
        simp [entryLit, Lit.layout, Lit.len, Lit.count, leaf]
      | succ j =>
        obtain ⟨left, right, e⟩ := (h5 (pos + Lit.tokenLen ik (Text.bytes s) + Lit.tokenLen ik 1)
          (i + 3)).2 j (by simpa using hj)
        refine ⟨.cons ⟨i, .entry, ⟨pos, pos + Lit.tokenLen ik (Text.bytes s)⟩⟩
          (leaf ⟨i + 1, .string, ⟨pos, pos + Lit.tokenLen ik (Text.bytes s)⟩⟩)
          (.cons ⟨i + 2, .whitespace, ⟨pos + Lit.tokenLen ik (Text.bytes s),
            pos + Lit.tokenLen ik (Text.bytes s) + Lit.tokenLen ik 1⟩⟩ .nil left), right, ?_⟩
        simp only [entryLit, Lit.layout, Lit.len, Lit.count, List.take_succ_cons, List.map_cons,
          List.sum_cons, List.getElem_cons_succ, Nat.add_zero]
        rw [show i + 1 + 1 + 1 = i + 3 by omega, e]
        rw [show i + 3 * (j + 1) = i + 3 + 3 * j by omega,
          show i + (3 * (j + 1) + 1) = i + 3 + (3 * j + 1) by omega,
          show i + (3 * (j + 1) + 2) = i + 3 + (3 * j + 2) by omega]
        simp only [Nat.add_assoc]
        rfl

end Syntree.Bench
