import Verif.Proof.CalcSharp
import Verif.Proof.CalcExpr

/-! How deep the evaluator of the calculator has to recurse. -/

namespace Syntree.Calc

open Forest

/-- Below the node, `b` operations are nested in each other on a way the evaluator takes. -/
inductive Path : Nat → Syn × Span → Forest (Syn × Span) → Prop where
  | zero {x : Syn × Span} {k : Forest (Syn × Span)} : Path 0 x k
  | first {b : Nat} {x y : Syn × Span} {kids ky : Forest (Syn × Span)}
      {rs : List ((Syn × Span) × Forest (Syn × Span))} : x.1 = .operation →
      branches kids = (y, ky) :: rs → Path b y ky → Path b x kids
  | operand {b : Nat} {x y o z : Syn × Span} {kids ky ko kz : Forest (Syn × Span)}
      {rs : List ((Syn × Span) × Forest (Syn × Span))} : x.1 = .operation →
      branches kids = (y, ky) :: (o, ko) :: (z, kz) :: rs → Path b z kz → Path (b + 1) x kids
  | group {b : Nat} {x y : Syn × Span} {ky r : Forest (Syn × Span)} : x.1 = .group →
      Path b y ky → Path b x (.cons y ky r)

/-- A limit on the frames changes nothing, or ends the run. -/
theorem evalNodeIn_or (nodes : Slice Syn) (source : Text) (fuel : Nat) :
    (∀ d n, evalNodeIn nodes source fuel d n = none ∨
      evalNodeIn nodes source fuel d n = evalNode nodes source fuel n) ∧
    (∀ d span it base, evalOpsIn nodes source fuel d span it base = none ∨
      evalOpsIn nodes source fuel d span it base = evalOps nodes source fuel span it base) := by
  induction fuel with
  | zero =>
    refine ⟨fun d n => Or.inl ?_, fun d span it base => Or.inl ?_⟩
    · unfold evalNodeIn; rfl
    · unfold evalOpsIn; rfl
  | succ fuel ih =>
    obtain ⟨ihn, iho⟩ := ih
    refine ⟨fun d n => ?_, fun d span it base => ?_⟩
    · cases d with
      | zero => exact Or.inl (by unfold evalNodeIn; rfl)
      | succ d =>
        rw [evalNodeIn, evalNode]
        cases nodeValue nodes n with
        | none => exact Or.inl rfl
        | some value =>
          cases nodeSpan nodes n with
          | none => exact Or.inl rfl
          | some span =>
            cases value with
            | group =>
              simp only
              cases nodeFirst nodes n with
              | none => exact Or.inr rfl
              | some first => exact ihn _ _
            | operation =>
              simp only
              rcases SkipTokens.next nodes (Children.next nodes) (nodeChildren nodes n) with ⟨it, g⟩
              cases g with
              | diverge => exact Or.inr rfl
              | none => exact Or.inr rfl
              | some first =>
                simp only
                rcases ihn d first with h | h
                · exact Or.inl (by rw [h])
                · rw [h]
                  cases evalNode nodes source fuel first with
                  | none => exact Or.inl rfl
                  | some v =>
                    cases v with
                    | error e => exact Or.inr rfl
                    | ok b => exact iho _ _ _ _
            | _ => exact Or.inr rfl
    · rw [evalOpsIn, evalOps]
      rcases SkipTokens.next nodes (Children.next nodes) it with ⟨it, g⟩
      cases g with
      | diverge => exact Or.inr rfl
      | none => exact Or.inr rfl
      | some o =>
        simp only
        cases nodeFirst nodes o with
        | none => exact Or.inr rfl
        | some o =>
          simp only
          cases nodeValue nodes o with
          | none => exact Or.inl rfl
          | some what =>
            cases nodeSpan nodes o with
            | none => exact Or.inl rfl
            | some opSpan =>
              simp only
              cases table what with
              | none => exact Or.inr rfl
              | some c =>
                obtain ⟨calculate, error⟩ := c
                simp only
                rcases SkipTokens.next nodes (Children.next nodes) it with ⟨it, g⟩
                cases g with
                | diverge => exact Or.inr rfl
                | none => exact Or.inr rfl
                | some first =>
                  simp only
                  rcases ihn d first with h | h
                  · exact Or.inl (by rw [h])
                  · rw [h]
                    cases evalNode nodes source fuel first with
                    | none => exact Or.inl rfl
                    | some v =>
                      cases v with
                      | error e => exact Or.inr rfl
                      | ok b =>
                        simp only
                        cases calculate base b with
                        | none => exact Or.inr rfl
                        | some n => exact iho _ _ _ _

section tree
variable {g : Bool} {t : Tree Syn} {F : Forest (Lab Syn)}

/-- If the node has a value, the evaluator has taken all ways below it. -/
theorem path_dead (h : Represents g t F) (source : Text) {b : Nat} {c : Syn × Span}
    {kc : Forest (Syn × Span)} (hp : Path b c kc) :
    ∀ (fuel d : Nat) {anc : List (Lab Syn)} {left kids right : Forest (Lab Syn)} {x : Lab Syn} {v : Int},
      Loc F anc left x kids right → c = (x.data, x.span) → kc = kids.content → d ≤ b →
      evalNode t.nodes source fuel x.id = some (.ok v) →
      evalNodeIn t.nodes source fuel d x.id = none := by
  induction hp with
  | zero =>
    intro fuel d anc left kids right x v _ _ _ hd _
    obtain rfl : d = 0 := by omega
    cases fuel <;> (unfold evalNodeIn; rfl)
  | group hx _ ih =>
    intro fuel d anc left kids right x v hl e1 e2 hd hv
    subst e1
    cases fuel with
    | zero => unfold evalNodeIn; rfl
    | succ fuel =>
      cases d with
      | zero => unfold evalNodeIn; rfl
      | succ d =>
        obtain ⟨_, hval, hs, _, _⟩ := h.node_get hl
        simp only at hx
        rw [hx] at hval
        cases kids with
        | nil => simp [content, Forest.map] at e2
        | cons y k r =>
          simp only [content, Forest.map, Forest.cons.injEq] at e2
          have hf : nodeFirst t.nodes x.id = some y.id := h.node_first hl
          rw [evalNode] at hv
          rw [evalNodeIn]
          simp only [hval, hs, hf] at hv ⊢
          exact ih fuel (d + 1) (Loc.child hl (left := .nil) rfl) e2.1 e2.2.1 hd hv
  | first hx hb _ ih =>
    intro fuel d anc left kids right x v hl e1 e2 hd hv
    subst e1
    cases fuel with
    | zero => unfold evalNodeIn; rfl
    | succ fuel =>
      cases d with
      | zero => unfold evalNodeIn; rfl
      | succ d =>
        obtain ⟨_, hval, hs, _, _⟩ := h.node_get hl
        simp only at hx
        rw [hx] at hval
        have hy := skip_children h hl
        rw [e2, branches_content] at hb
        cases hbr : branches kids with
        | nil => rw [hbr] at hb; simp at hb
        | cons p ps =>
          rw [hbr] at hb hy
          simp only [List.map_cons, List.cons.injEq, contentOf, Prod.mk.injEq] at hb
          obtain ⟨l, r, e⟩ := branches_loc p (by rw [hbr]; simp)
          cases hy with
          | item e' hy =>
            rw [evalNode] at hv
            rw [evalNodeIn]
            simp only [hval, hs, e'] at hv ⊢
            cases hq : evalNode t.nodes source fuel p.1.id with
            | none => rw [hq] at hv; simp at hv
            | some w =>
              cases w with
              | error er => rw [hq] at hv; simp at hv
              | ok w =>
                rw [ih fuel d (Loc.child hl e) hb.1.1.symm hb.1.2.symm (by omega) hq]
  | operand hx hb _ ih =>
    intro fuel d anc left kids right x v hl e1 e2 hd hv
    subst e1
    cases fuel with
    | zero => unfold evalNodeIn; rfl
    | succ fuel =>
      cases d with
      | zero => unfold evalNodeIn; rfl
      | succ d =>
        obtain ⟨_, hval, hs, _, _⟩ := h.node_get hl
        simp only at hx
        rw [hx] at hval
        have hy := skip_children h hl
        rw [e2, branches_content] at hb
        have hloc : ∀ q ∈ branches kids, ∃ l r, kids = l ++ .cons q.1 q.2 r := branches_loc
        rcases hbr : branches kids with _ | ⟨p, _ | ⟨p1, _ | ⟨p2, ps⟩⟩⟩
        · rw [hbr] at hb; simp at hb
        · rw [hbr] at hb; simp at hb
        · rw [hbr] at hb; simp at hb
        · rw [hbr] at hb hy hloc
          simp only [List.map_cons, List.cons.injEq, contentOf, Prod.mk.injEq] at hb
          obtain ⟨l, r, e⟩ := hloc p2 (by simp)
          simp only [List.map_cons] at hy
          cases hy with
          | item e0 hy =>
            cases hy with
            | item e1 hy =>
              cases hy with
              | item e2 hy =>
                rw [evalNode] at hv
                rw [evalNodeIn]
                simp only [hval, hs, e0] at hv ⊢
                cases hq : evalNode t.nodes source fuel p.1.id with
                | none => rw [hq] at hv; simp at hv
                | some w =>
                  cases w with
                  | error er => rw [hq] at hv; simp at hv
                  | ok w =>
                    rw [hq] at hv
                    rcases (evalNodeIn_or t.nodes source fuel).1 d p.1.id with hn | hn
                    · rw [hn]
                    · rw [hn, hq]
                      simp only at hv ⊢
                      cases fuel with
                      | zero => unfold evalOpsIn; rfl
                      | succ fuel =>
                        rw [evalOps] at hv
                        rw [evalOpsIn]
                        simp only [e1] at hv ⊢
                        cases hnf : nodeFirst t.nodes p1.1.id with
                        | none => rw [hnf] at hv; simp at hv
                        | some o =>
                          rw [hnf] at hv
                          simp only at hv ⊢
                          cases hov : nodeValue t.nodes o with
                          | none => rfl
                          | some what =>
                            cases hos : nodeSpan t.nodes o with
                            | none => rfl
                            | some opSpan =>
                              rw [hov, hos] at hv
                              simp only at hv ⊢
                              cases ht : table what with
                              | none => rw [ht] at hv; simp at hv
                              | some cc =>
                                obtain ⟨calculate, error⟩ := cc
                                rw [ht] at hv
                                simp only [e2] at hv ⊢
                                cases hq2 : evalNode t.nodes source fuel p2.1.id with
                                | none => rw [hq2] at hv; simp at hv
                                | some w2 =>
                                  cases w2 with
                                  | error er => rw [hq2] at hv; simp at hv
                                  | ok w2 =>
                                    rw [ih fuel d (Loc.child hl e) hb.2.2.1.1.symm
                                      hb.2.2.1.2.symm (by omega) hq2]

end tree

/-! ## What the parser makes -/

/-- What `expr` adds starts with a node below which `b` operations are nested. -/
def Reaches (b min : Nat) (ts : List Token) (strict : Prop) : Prop :=
  ∀ (fuel : Nat) (s s' : St), s.toks = ts → pexpr fuel min s = some s' →
    ∃ G u x k rs, Ext s s' G u ∧ branches G = (x, k) :: rs ∧ Path b x k ∧
      (strict → ∃ r, G = .cons x k r)

theorem branches_bumped (s : St) (d : Syn) (G : Forest (Syn × Span)) :
    ∃ x k, branches (bumped s d ++ G) = (x, k) :: branches G :=
  ⟨_, _, rfl⟩

theorem Reaches.number {min l : Nat} {ts : List Token} :
    Reaches 0 min (⟨l, .number⟩ :: ts) True := by
  intro fuel s s' hs h
  have hk := skip_of_cons hs (by simp)
  cases fuel with
  | zero => simp [pexpr] at h
  | succ fuel =>
    rw [pexpr, hk] at h
    have hh : s.head.syn = .number := by simp [St.head, hs]
    simp only [hh] at h
    rw [if_neg (by simp), if_pos trivial] at h
    obtain ⟨o, s2, e, rfl⟩ := finish_some h
    obtain ⟨G, u, h2⟩ := (pexpr_ext fuel).2 _ _ _ _ _ e
    have h3 := (Ext.bump s .number).trans h2
    cases o with
    | false => exact ⟨_, _, _, _, _, h3, rfl, Path.zero, fun _ => ⟨_, rfl⟩⟩
    | true => exact ⟨_, _, _, _, _, h3.wrap .operation, rfl, Path.zero, fun _ => ⟨_, rfl⟩⟩

theorem Reaches.operator {b min left right l1 l2 : Nat} {k : Syn} {ts : List Token} {c : Prop}
    (h : Reaches b right ts c) (ho : op k = some (left, right)) (hm : left ≥ min) :
    Reaches (b + 1) min (⟨l1, .number⟩ :: ⟨l2, k⟩ :: ts) True := by
  intro fuel s s' hs he
  have hw : k ≠ .whitespace := by rintro rfl; simp [op] at ho
  have hk := skip_of_cons hs (by simp)
  cases fuel with
  | zero => simp [pexpr] at he
  | succ fuel =>
    rw [pexpr, hk] at he
    have hh : s.head.syn = .number := by simp [St.head, hs]
    simp only [hh] at he
    rw [if_neg (by simp), if_pos trivial] at he
    obtain ⟨o, s2, e, rfl⟩ := finish_some he
    cases fuel with
    | zero => simp [ploop] at e
    | succ fuel =>
      have h1 : (s.bump .number).toks = ⟨l2, k⟩ :: ts := by simp [St.bump, hs]
      rw [ploop, skip_of_cons h1 hw] at e
      have hh : op (s.bump .number).head.syn = some (left, right) := by simp [St.head, h1, ho]
      simp only [hh, if_pos hm] at e
      split at e
      · simp at e
      · rename_i s3 e3
        obtain ⟨G, u, x, kx, rs, x3, b3, p3, _⟩ := h fuel _ _ (by simp [St.bump, hs]) e3
        obtain ⟨G', u', x4⟩ := (pexpr_ext fuel).2 _ _ _ _ _ e
        obtain rfl := ploop_true _ _ _ _ _ e
        have xx := (((Ext.bump s .number).trans (Ext.bump _ .operator)).trans x3).trans x4
        refine ⟨_, _, _, _, _, xx.wrap .operation, rfl, ?_, fun _ => ⟨_, rfl⟩⟩
        have : ∀ A B C D : Forest (Syn × Span), ((A ++ B) ++ C) ++ D = A ++ (B ++ (C ++ D)) := by
          intro A B C D; simp [Forest.append_assoc]
        obtain ⟨y, ky, e1⟩ := branches_bumped s .number
          (bumped (s.bump .number) .operator ++ (G ++ G'))
        obtain ⟨z, kz, e2⟩ := branches_bumped (s.bump .number) .operator (G ++ G')
        have eb : branches (((bumped s .number ++ bumped (s.bump .number) .operator) ++ G) ++ G') =
            (y, ky) :: (z, kz) :: (x, kx) :: (rs ++ branches G') := by
          rw [this, e1, e2, branches_append, b3]; rfl
        exact Path.operand rfl eb p3

theorem Reaches.paren {b min l : Nat} {ts : List Token} (h : Reaches b 0 ts True) :
    Reaches b min (⟨l, .openParen⟩ :: ts) False := by
  intro fuel s s' hs he
  have hk := skip_of_cons hs (by simp)
  cases fuel with
  | zero => simp [pexpr] at he
  | succ fuel =>
    rw [pexpr, hk] at he
    have hh : s.head.syn = .openParen := by simp [St.head, hs]
    rw [if_pos hh] at he
    split at he
    · simp at he
    · rename_i s2 e2
      obtain ⟨G, u, x, kx, rs, x2, b2, p2, c2⟩ := h fuel _ _ (by simp [St.take, hs]) e2
      obtain ⟨r, rfl⟩ := c2 trivial
      have x3 := (Ext.take s (by simp [hs])).trans (x2.wrap .group)
      obtain ⟨G4, u4, x4, _⟩ := Ext.skip (s2.wrap s.take.width .group)
      have x5 := x3.trans x4
      have pg : Path b (Syn.group, (⟨s.take.lev.pos, s2.lev.pos⟩ : Span)) (.cons x kx r) :=
        Path.group rfl p2
      split at he
      · rename_i hc
        obtain ⟨o, s6, e6, rfl⟩ := finish_some he
        obtain ⟨G7, u7, x7⟩ := (pexpr_ext fuel).2 _ _ _ _ _ e6
        have x8 := (x5.trans (Ext.take _ (head_toks hc (by simp)))).trans x7
        cases o with
        | false => exact ⟨_, _, _, _, _, x8, rfl, pg, False.elim⟩
        | true =>
          exact ⟨_, _, _, _, _, x8.wrap .operation, rfl, Path.first rfl rfl pg, False.elim⟩
      · simp only [Option.some.injEq] at he
        subst he
        exact ⟨_, _, _, _, _, x5.trans (Ext.bump _ _), rfl, pg, False.elim⟩

end Syntree.Calc
