import Verif.Proof.OwnRun
import Verif.Proof.Iterate

/-! Reading a tree that satisfies `Own` ends. -/

namespace Syntree

variable {α : Type}

/-! ## Depth in the forest of owners -/

def depF (own : Nat → Option Nat) : Nat → Nat → Nat
  | 0, _ => 0
  | f + 1, d =>
    match own d with
    | none => 0
    | some o => depF own f o + 1

section

variable {nodes : List (Links α)} {own : Nat → Option Nat} {rank : Nat → Nat}

theorem Own.depF_eq (h : Own nodes own rank) : ∀ (f f' d : Nat), rank d < f → rank d < f' →
    depF own f d = depF own f' d := by
  intro f
  induction f with
  | zero => intro f' d h1; omega
  | succ f ih =>
    intro f' d h1 h2
    cases f' with
    | zero => omega
    | succ f' =>
      simp only [depF]
      cases ho : own d with
      | none => rfl
      | some o =>
        have := (h.dom d o ho).2.1
        simp only
        rw [ih f' o (by omega) (by omega)]

/-- A depth function. -/
structure Dep (own : Nat → Option Nat) (dep : Nat → Nat) : Prop where
  root : ∀ d, own d = none → dep d = 0
  below : ∀ d o, own d = some o → dep d = dep o + 1

theorem Own.dep (h : Own nodes own rank) : ∃ dep, Dep own dep := by
  refine ⟨fun d => depF own (rank d + 1) d, ?_, ?_⟩
  · intro d hd; simp [depF, hd]
  · intro d o hd
    have := (h.dom d o hd).2.1
    rw [depF, hd]
    simp only
    rw [h.depF_eq (rank d) (rank o + 1) o (by omega) (by omega)]

/-- Above or equal. -/
def AncS (own : Nat → Option Nat) (a d : Nat) : Prop := a = d ∨ Anc own a d

theorem Anc.owner {a x : Nat} (h : Anc own a x) : ∃ o, own x = some o ∧ AncS own a o := by
  cases h with
  | base e => exact ⟨a, e, .inl rfl⟩
  | step e h => exact ⟨_, e, .inr h⟩

theorem AncS.below {a x o : Nat} (h : AncS own a o) (e : own x = some o) : Anc own a x := by
  rcases h with rfl | h
  · exact .base e
  · exact .step e h

theorem AncS.trans {a b c : Nat} (h : AncS own a b) (h' : AncS own b c) : AncS own a c := by
  rcases h with rfl | h
  · exact h'
  · rcases h' with rfl | h'
    · exact .inr h
    · exact .inr (h.trans h')

theorem Anc.transS {a b c : Nat} (h : Anc own a b) (h' : AncS own b c) : Anc own a c := by
  rcases h' with rfl | h'
  · exact h
  · exact h.trans h'

theorem Dep.lt {dep : Nat → Nat} (hd : Dep own dep) {a x : Nat} (h : Anc own a x) :
    dep a < dep x := by
  induction h with
  | base e => have := hd.below _ _ e; omega
  | step e _ ih => have := hd.below _ _ e; omega

theorem Dep.uniq {dep : Nat → Nat} (hd : Dep own dep) (n : Nat) : ∀ {a b x : Nat}, dep x = n →
    AncS own a x → AncS own b x → dep a = dep b → a = b := by
  induction n with
  | zero =>
    intro a b x hx ha hb _
    rcases ha with rfl | ha
    · rcases hb with rfl | hb
      · rfl
      · have := hd.lt hb; omega
    · have := hd.lt ha; omega
  | succ n ih =>
    intro a b x hx ha hb e
    rcases ha with rfl | ha
    · rcases hb with rfl | hb
      · rfl
      · have := hd.lt hb; omega
    · rcases hb with rfl | hb
      · have := hd.lt ha; omega
      · obtain ⟨o, h1, h2⟩ := ha.owner
        obtain ⟨o', h1', h2'⟩ := hb.owner
        rw [h1] at h1'; simp at h1'; subst h1'
        have := hd.below _ _ h1
        exact ih (by omega) h2 h2' e

theorem Dep.sibs {dep : Nat → Nat} (hd : Dep own dep) {a b : Nat} (h : own a = own b) :
    dep a = dep b := by
  cases ho : own a with
  | none => rw [hd.root a ho, hd.root b (h ▸ ho)]
  | some o => rw [hd.below a o ho, hd.below b o (h ▸ ho)]

/-! ## Counting -/

theorem length_le_of_lt (N : Nat) : ∀ (L : List Nat), L.Nodup → (∀ x ∈ L, x < N) → L.length ≤ N := by
  induction N with
  | zero =>
    intro L _ h
    cases L with
    | nil => simp
    | cons x L => have := h x (by simp); omega
  | succ N ih =>
    intro L hn h
    have h1 : (L.erase N).Nodup := hn.erase N
    have h2 : ∀ x ∈ L.erase N, x < N := by
      intro x hx
      have hm := (List.Nodup.mem_erase_iff hn).1 hx
      have := h x hm.2
      omega
    have := ih _ h1 h2
    have := List.length_erase_le (a := N) (l := L)
    have h3 : L.length ≤ (L.erase N).length + 1 := by
      rw [List.length_erase]; split <;> omega
    omega

theorem Own.chain (h : Own nodes own rank) {dep : Nat → Nat} (hd : Dep own dep) (n : Nat) :
    ∀ {d : Nat}, dep d = n → d < nodes.length →
    ∃ L : List Nat, L.length = n + 1 ∧ L.Nodup ∧ ∀ x ∈ L, AncS own x d ∧ x < nodes.length := by
  induction n with
  | zero =>
    intro d _ hl
    exact ⟨[d], rfl, by simp, by simp [AncS, hl]⟩
  | succ n ih =>
    intro d hn hl
    cases ho : own d with
    | none => have := hd.root d ho; omega
    | some o =>
      have := hd.below d o ho
      obtain ⟨_, _, lo, h1, _⟩ := h.dom d o ho
      obtain ⟨L, h2, h3, h4⟩ := ih (d := o) (by omega) (get_lt h1)
      refine ⟨d :: L, by simp [h2], ?_, ?_⟩
      · refine List.nodup_cons.2 ⟨?_, h3⟩
        intro hm
        exact h.irrefl ((h4 d hm).1.below ho)
      · intro x hx
        rcases List.mem_cons.1 hx with rfl | hx
        · exact ⟨.inl rfl, hl⟩
        · exact ⟨.inr ((h4 x hx).1.below ho), (h4 x hx).2⟩

theorem Own.dep_lt (h : Own nodes own rank) {dep : Nat → Nat} (hd : Dep own dep) {d : Nat}
    (hl : d < nodes.length) : dep d < nodes.length := by
  obtain ⟨L, h1, h2, h3⟩ := h.chain hd _ rfl hl
  have := length_le_of_lt nodes.length L h2 (fun x hx => (h3 x hx).2)
  omega

/-! ## Walks -/

/-- `x` comes after `d` and everything below `d`. -/
def After (own : Nat → Option Nat) (d x : Nat) : Prop :=
  ∃ y y', AncS own y d ∧ own y' = own y ∧ y < y' ∧ AncS own y' x

theorem After.not_below {dep : Nat → Nat} (hd : Dep own dep) {d x : Nat} (h : After own d x) :
    ¬ AncS own d x := by
  intro hx
  obtain ⟨y, y', h1, h2, h3, h4⟩ := h
  have := hd.uniq _ rfl (h1.trans hx) h4 (hd.sibs h2.symm)
  omega

theorem After.not_above {dep : Nat → Nat} (hd : Dep own dep) {d x : Nat} (h : After own d x) :
    ¬ AncS own x d := by
  intro hx
  obtain ⟨y, y', h1, h2, h3, h4⟩ := h
  have := hd.uniq _ rfl h1 (h4.trans hx) (hd.sibs h2.symm)
  omega

/-- The nodes entered. -/
def ins (l : List (Int × Event × Nat)) : List Nat :=
  (l.filter (fun p => p.2.1 != .up)).map (·.2.2)

/-- The nodes left. -/
def outs (l : List (Int × Event × Nat)) : List Nat :=
  (l.filter (fun p => p.2.1 == .up)).map (·.2.2)

theorem ins_up (d : Int) (n : Nat) (l : List (Int × Event × Nat)) :
    ins ((d, .up, n) :: l) = ins l := by simp [ins]

theorem ins_other (d : Int) {e : Event} (he : e ≠ .up) (n : Nat) (l : List (Int × Event × Nat)) :
    ins ((d, e, n) :: l) = n :: ins l := by simp [ins, he]

theorem outs_up (d : Int) (n : Nat) (l : List (Int × Event × Nat)) :
    outs ((d, .up, n) :: l) = n :: outs l := by simp [outs]

theorem outs_other (d : Int) {e : Event} (he : e ≠ .up) (n : Nat) (l : List (Int × Event × Nat)) :
    outs ((d, e, n) :: l) = outs l := by simp [outs, he]

theorem outs_length (l : List (Int × Event × Nat)) : (outs l).length = ups l := by
  simp [outs, ups]

theorem ins_visited (l : List (Int × Event × Nat)) : (visited l).map (·.2) = ins l := by
  simp [ins, visited, List.map_map, Function.comp_def]

/-- From leaving `d`. -/
def UpEnds (nodes : List (Links α)) (own : Nat → Option Nat) (d : Nat) : Prop :=
  ∀ D : Int, ∃ l, Rest nodes ⟨some (d, .up), D⟩ l ∧ (ins l).Nodup ∧ (outs l).Nodup ∧
    (∀ x ∈ ins l, x < nodes.length ∧ After own d x) ∧
    (∀ x ∈ outs l, x < nodes.length ∧ (AncS own x d ∨ After own d x))

/-- From entering `d`. -/
def InEnds (nodes : List (Links α)) (own : Nat → Option Nat) (d : Nat) : Prop :=
  ∀ (D : Int) (e : Event), e ≠ .up →
    ∃ l, Rest nodes ⟨some (d, e), D⟩ l ∧ (ins l).Nodup ∧ (outs l).Nodup ∧
    (∀ x ∈ ins l, x < nodes.length ∧ (AncS own d x ∨ After own d x)) ∧
    (∀ x ∈ outs l, x < nodes.length ∧ (AncS own d x ∨ AncS own x d ∨ After own d x))

/-- What follows the children of `d`. -/
def Exit (nodes : List (Links α)) (own : Nat → Option Nat) (d : Nat) (w : WalkEvents) : Prop :=
  ∃ l, Rest nodes w l ∧ (ins l).Nodup ∧ (outs l).Nodup ∧
    (∀ x ∈ ins l, x < nodes.length ∧ After own d x) ∧
    (∀ x ∈ outs l, x < nodes.length ∧ (Anc own x d ∨ After own d x))

theorem After.up {q d x : Nat} (h : After own q x) (hq : Anc own q d) : After own d x := by
  obtain ⟨y, y', h1, h2, h3, h4⟩ := h
  exact ⟨y, y', h1.trans (.inr hq), h2, h3, h4⟩

theorem After.sib {d m x : Nat} (h : AncS own m x ∨ After own m x) (he : own m = own d)
    (hlt : d < m) : After own d x := by
  rcases h with h | ⟨y, y', h1, h2, h3, h4⟩
  · exact ⟨d, m, .inl rfl, he, hlt, h⟩
  · rcases h1 with rfl | h1
    · exact ⟨d, y', .inl rfl, h2.trans he, by omega, h4⟩
    · obtain ⟨o, e1, e2⟩ := h1.owner
      exact ⟨y, y', .inr (e2.below (he ▸ e1)), h2, h3, h4⟩

theorem After.child {d f x : Nat} (h : AncS own f x ∨ After own f x) (he : own f = some d) :
    AncS own d x ∨ After own d x := by
  rcases h with h | ⟨y, y', h1, h2, h3, h4⟩
  · exact .inl (.inr ((Anc.base he).transS h))
  · rcases h1 with rfl | h1
    · exact .inl (.inr ((Anc.base (h2.trans he)).transS h4))
    · obtain ⟨o, e1, e2⟩ := h1.owner
      rw [he] at e1; simp at e1; subst e1
      exact .inr ⟨y, y', e2, h2, h3, h4⟩

/-- Where the walk goes from a node whose children are done. -/
def exitOf (l : Links α) (D : Int) : WalkEvents :=
  match l.next with
  | some m => ⟨some (m, .next), D⟩
  | none => match l.parent with
    | some q => ⟨some (q, .up), D - 1⟩
    | none => ⟨none, D - 1⟩

theorem next_up {d : Nat} {l : Links α} (hl : nodes[d]? = some l) (D : Int) :
    WalkEvents.next nodes ⟨some (d, .up), D⟩ = (exitOf l D, .some (.up, d)) := by
  simp only [WalkEvents.next, hl, WalkEvents.step, exitOf]
  cases l.next with
  | some m => rfl
  | none => cases l.parent <;> rfl

theorem next_leaf {d : Nat} {l : Links α} (hl : nodes[d]? = some l) (hf : l.first = none) (D : Int)
    {e : Event} (he : e ≠ .up) :
    WalkEvents.next nodes ⟨some (d, e), D⟩ = (exitOf l D, .some (e, d)) := by
  simp only [WalkEvents.next, hl, exitOf]
  cases e with
  | up => exact absurd rfl he
  | next =>
    simp only [WalkEvents.step, hf]
    cases l.next with
    | some m => rfl
    | none => cases l.parent <;> rfl
  | down =>
    simp only [WalkEvents.step, hf]
    cases l.next with
    | some m => rfl
    | none => cases l.parent <;> rfl

theorem next_inner {d f : Nat} {l : Links α} (hl : nodes[d]? = some l) (hf : l.first = some f)
    (D : Int) {e : Event} (he : e ≠ .up) :
    WalkEvents.next nodes ⟨some (d, e), D⟩ = (⟨some (f, .down), D + 1⟩, .some (e, d)) := by
  simp only [WalkEvents.next, hl]
  cases e with
  | up => exact absurd rfl he
  | next => simp only [WalkEvents.step, hf]
  | down => simp only [WalkEvents.step, hf]

theorem Own.exit (h : Own nodes own rank) {d : Nat} {l : Links α} (hl : nodes[d]? = some l)
    (hup : ∀ q, Anc own q d → UpEnds nodes own q)
    (hin : ∀ m, l.next = some m → InEnds nodes own m) (D : Int) :
    Exit nodes own d (exitOf l D) := by
  unfold exitOf
  cases hx : l.next with
  | some m =>
    obtain ⟨h1, h2, _⟩ := h.next d l m hl hx
    obtain ⟨es, r, n1, n2, c1, c2⟩ := hin m hx D .next (by simp)
    refine ⟨es, r, n1, n2, fun x hxm => ⟨(c1 x hxm).1, After.sib (c1 x hxm).2 h2 h1⟩, ?_⟩
    intro x hxm
    refine ⟨(c2 x hxm).1, ?_⟩
    rcases (c2 x hxm).2 with g | g | g
    · exact .inr (After.sib (.inl g) h2 h1)
    · rcases g with rfl | g
      · exact .inr (After.sib (.inl (.inl rfl)) h2 h1)
      · obtain ⟨o, e1, e2⟩ := g.owner
        exact .inl (e2.below (h2 ▸ e1))
    · exact .inr (After.sib (.inr g) h2 h1)
  | none =>
    cases hp : l.parent with
    | none => exact ⟨[], .done rfl, by simp [ins], by simp [outs], by simp [ins], by simp [outs]⟩
    | some q =>
      have hq := h.par d l q hl hp
      obtain ⟨es, r, n1, n2, c1, c2⟩ := hup q hq (D - 1)
      refine ⟨es, r, n1, n2, fun x hxm => ⟨(c1 x hxm).1, (c1 x hxm).2.up hq⟩, ?_⟩
      intro x hxm
      refine ⟨(c2 x hxm).1, ?_⟩
      rcases (c2 x hxm).2 with g | g
      · left
        rcases g with rfl | g
        · exact hq
        · exact g.trans hq
      · exact .inr (g.up hq)

theorem Own.ends (h : Own nodes own rank) {dep : Nat → Nat} (hd : Dep own dep) :
    ∀ (k n d : Nat), nodes.length - dep d ≤ k → nodes.length - d ≤ n → d < nodes.length →
    (∀ q, Anc own q d → UpEnds nodes own q) → UpEnds nodes own d ∧ InEnds nodes own d := by
  intro k
  induction k with
  | zero =>
    intro n d hk _ hl _
    have := h.dep_lt hd hl; omega
  | succ k ihk =>
    intro n
    induction n with
    | zero => intro d _ hn hl; omega
    | succ n ihn =>
      intro d hk hn hl hup
      obtain ⟨l, hget⟩ := get_of_lt hl
      have hin : ∀ m, l.next = some m → InEnds nodes own m := by
        intro m hm
        obtain ⟨h1, h2, lm, h3, _⟩ := h.next d l m hget hm
        have hml := get_lt h3
        refine (ihn m ?_ (by omega) hml ?_).2
        · rw [hd.sibs h2]; exact hk
        · intro q hq
          obtain ⟨o, e1, e2⟩ := hq.owner
          exact hup q (e2.below (h2 ▸ e1))
      have hexit := h.exit hget hup hin
      have hU : UpEnds nodes own d := by
        intro D
        obtain ⟨es, r, n1, n2, c1, c2⟩ := hexit D
        refine ⟨_, .item (next_up hget D) r, by rw [ins_up]; exact n1, ?_, by rw [ins_up]; exact c1, ?_⟩
        · rw [outs_up]
          refine List.nodup_cons.2 ⟨?_, n2⟩
          intro hm
          rcases (c2 d hm).2 with g | g
          · exact h.irrefl g
          · exact g.not_below hd (.inl rfl)
        · rw [outs_up]
          intro x hx
          rcases List.mem_cons.1 hx with rfl | hx
          · exact ⟨hl, .inl (.inl rfl)⟩
          · exact ⟨(c2 x hx).1, (c2 x hx).2.imp .inr id⟩
      refine ⟨hU, ?_⟩
      intro D e he
      cases hf : l.first with
      | none =>
        obtain ⟨es, r, n1, n2, c1, c2⟩ := hexit D
        refine ⟨_, .item (next_leaf hget hf D he) r, ?_, by rw [outs_other _ he]; exact n2, ?_, ?_⟩
        · rw [ins_other _ he]
          refine List.nodup_cons.2 ⟨?_, n1⟩
          intro hm
          exact (c1 d hm).2.not_below hd (.inl rfl)
        · rw [ins_other _ he]
          intro x hx
          rcases List.mem_cons.1 hx with rfl | hx
          · exact ⟨hl, .inl (.inl rfl)⟩
          · exact ⟨(c1 x hx).1, .inr (c1 x hx).2⟩
        · rw [outs_other _ he]
          intro x hx
          refine ⟨(c2 x hx).1, .inr ?_⟩
          exact (c2 x hx).2.imp .inr id
      | some f =>
        obtain ⟨h1, lf, h2, _, _⟩ := h.first d l f hget hf
        have hfl := get_lt h2
        have hdf := hd.below f d h1
        have hfu : ∀ q, Anc own q f → UpEnds nodes own q := by
          intro q hq
          obtain ⟨o, e1, e2⟩ := hq.owner
          rw [h1] at e1; simp at e1; subst e1
          rcases e2 with rfl | e2
          · exact hU
          · exact hup q e2
        have hdl := h.dep_lt hd hl
        obtain ⟨es, r, n1, n2, c1, c2⟩ :=
          (ihk (nodes.length - f) f (by omega) (Nat.le_refl _) hfl hfu).2 (D + 1) .down (by simp)
        have hAD : Anc own d f := .base h1
        refine ⟨_, .item (next_inner hget hf D he) r, ?_, by rw [outs_other _ he]; exact n2, ?_, ?_⟩
        · rw [ins_other _ he]
          refine List.nodup_cons.2 ⟨?_, n1⟩
          intro hm
          rcases (c1 d hm).2 with g | g
          · exact h.irrefl (hAD.transS g)
          · exact g.not_above hd (.inr hAD)
        · rw [ins_other _ he]
          intro x hx
          rcases List.mem_cons.1 hx with rfl | hx
          · exact ⟨hl, .inl (.inl rfl)⟩
          · exact ⟨(c1 x hx).1, After.child (c1 x hx).2 h1⟩
        · rw [outs_other _ he]
          intro x hx
          refine ⟨(c2 x hx).1, ?_⟩
          rcases (c2 x hx).2 with g | g | g
          · exact (After.child (.inl g) h1).imp id .inr
          · rcases g with rfl | g
            · exact .inl (.inr hAD)
            · right; left
              obtain ⟨o, e1, e2⟩ := g.owner
              rw [h1] at e1; simp at e1; subst e1
              exact e2
          · exact (After.child (.inr g) h1).imp id .inr

theorem Own.all_ends (h : Own nodes own rank) {d : Nat} (hl : d < nodes.length) :
    UpEnds nodes own d ∧ InEnds nodes own d := by
  obtain ⟨dep, hd⟩ := h.dep
  have key : ∀ (k d : Nat), dep d ≤ k → d < nodes.length → UpEnds nodes own d := by
    intro k
    induction k with
    | zero =>
      intro d hk hl
      refine (h.ends hd _ _ d (Nat.le_refl _) (Nat.le_refl _) hl ?_).1
      intro q hq; have := hd.lt hq; omega
    | succ k ih =>
      intro d hk hl
      refine (h.ends hd _ _ d (Nat.le_refl _) (Nat.le_refl _) hl ?_).1
      intro q hq
      have := hd.lt hq
      obtain ⟨_, _, lq, h1, _⟩ := h.anc_lt hq
      exact ih q (by omega) (get_lt h1)
  refine h.ends hd _ _ d (Nat.le_refl _) (Nat.le_refl _) hl ?_
  intro q hq
  obtain ⟨_, _, lq, h1, _⟩ := h.anc_lt hq
  exact key _ q (Nat.le_refl _) (get_lt h1)

/-- Every traversal from a node of the table, entering or leaving it. -/
theorem Own.rest (h : Own nodes own rank) {d : Nat} (hl : d < nodes.length) (e : Event) (D : Int) :
    ∃ l, Rest nodes ⟨some (d, e), D⟩ l ∧ (ins l).Nodup ∧ (outs l).Nodup ∧
      (∀ x ∈ ins l, x < nodes.length) ∧ ∀ x ∈ outs l, x < nodes.length := by
  by_cases he : e = .up
  · subst he
    obtain ⟨l, h1, h2, h3, h4, h5⟩ := (h.all_ends hl).1 D
    exact ⟨l, h1, h2, h3, fun x hx => (h4 x hx).1, fun x hx => (h5 x hx).1⟩
  · obtain ⟨l, h1, h2, h3, h4, h5⟩ := (h.all_ends hl).2 D e he
    exact ⟨l, h1, h2, h3, fun x hx => (h4 x hx).1, fun x hx => (h5 x hx).1⟩

/-! ## Other ways to read -/

theorem Own.parent_dep (h : Own nodes own rank) {dep : Nat → Nat} (hd : Dep own dep) {n q : Nat}
    (e : nodeParent nodes n = some q) : dep q < dep n ∧ q < nodes.length := by
  unfold nodeParent follow at e
  split at e
  · simp at e
  · rename_i l hl
    split at e
    · simp at e
    · rename_i i hi
      unfold nodeAt at e
      split at e
      · simp at e
      · rename_i l2 hl2
        simp at e; subst e
        exact ⟨hd.lt (h.par n l _ hl hi), get_lt hl2⟩

theorem Own.last_dep (h : Own nodes own rank) {dep : Nat → Nat} (hd : Dep own dep) {n q : Nat}
    (e : nodeLast nodes n = some q) : dep n < dep q ∧ q < nodes.length := by
  unfold nodeLast follow at e
  split at e
  · simp at e
  · rename_i l hl
    split at e
    · simp at e
    · rename_i i hi
      unfold nodeAt at e
      split at e
      · simp at e
      · rename_i l2 hl2
        simp at e; subst e
        exact ⟨hd.lt (h.last n l _ hl hi), get_lt hl2⟩

theorem Own.next_lt (h : Own nodes own rank) {n q : Nat} (e : nodeNext nodes n = some q) :
    n < q ∧ q < nodes.length := by
  unfold nodeNext follow at e
  split at e
  · simp at e
  · rename_i l hl
    split at e
    · simp at e
    · rename_i i hi
      unfold nodeAt at e
      split at e
      · simp at e
      · rename_i l2 hl2
        simp at e; subst e
        exact ⟨(h.next n l _ hl hi).1, get_lt hl2⟩

theorem nodePrev_lt (h : Own nodes own rank) {n q : Nat} (e : nodePrev nodes n = some q) :
    q < nodes.length := by
  unfold nodePrev follow at e
  split at e
  · simp at e
  · split at e
    · simp at e
    · unfold nodeAt at e
      split at e
      · simp at e
      · rename_i l2 hl2
        simp at e; subst e
        exact get_lt hl2

theorem Own.findUp (h : Own nodes own rank) {dep : Nat → Nat} (hd : Dep own dep) (p : Nat → Bool) :
    ∀ (fuel n : Nat), dep n < fuel → findPrecedingUp nodes p fuel n ≠ .diverge ∧
      ∀ m, findPrecedingUp nodes p fuel n = .some m → m < nodes.length := by
  intro fuel
  induction fuel with
  | zero => intro n hn; omega
  | succ fuel ih =>
    intro n hn
    simp only [findPrecedingUp]
    have hu : (match nodeParent nodes n with
        | none => (.none : Got Nat)
        | some q => findPrecedingUp nodes p fuel q) ≠ .diverge ∧
        ∀ m, (match nodeParent nodes n with
          | none => (.none : Got Nat)
          | some q => findPrecedingUp nodes p fuel q) = .some m → m < nodes.length := by
      cases hq : nodeParent nodes n with
      | none => simp
      | some q =>
        have := (h.parent_dep hd hq).1
        exact ih q (by omega)
    cases hp : nodePrev nodes n with
    | none => exact hu
    | some m =>
      simp only
      split
      · refine ⟨by simp, ?_⟩
        intro m' hm; simp at hm; subst hm
        exact nodePrev_lt h hp
      · exact hu

theorem Own.findDown (h : Own nodes own rank) {dep : Nat → Nat} (hd : Dep own dep) (p : Nat → Bool) :
    ∀ (fuel n : Nat), n < nodes.length → nodes.length - dep n ≤ fuel →
      findPrecedingDown nodes p fuel n ≠ .diverge := by
  intro fuel
  induction fuel with
  | zero => intro n hl hn; have := h.dep_lt hd hl; omega
  | succ fuel ih =>
    intro n hl hn
    simp only [findPrecedingDown]
    cases hq : nodeLast nodes n with
    | none => simp
    | some q =>
      simp only
      split
      · simp
      · have := h.last_dep hd hq
        exact ih q this.2 (by omega)

theorem Own.findPreceding (h : Own nodes own rank) (p : Nat → Bool) {n : Nat}
    (hl : n < nodes.length) : findPreceding nodes p n ≠ .diverge := by
  obtain ⟨dep, hd⟩ := h.dep
  unfold Syntree.findPreceding
  have h1 := h.findUp hd p (nodes.length + 1) n (by have := h.dep_lt hd hl; omega)
  split
  · rename_i m hm
    exact h.findDown hd p _ m (h1.2 m hm) (by omega)
  · simp
  · rename_i hm; exact absurd hm h1.1

theorem Own.climb (h : Own nodes own rank) {dep : Nat → Nat} (hd : Dep own dep) (stop : Nat) :
    ∀ (fuel n : Nat), dep n < fuel → climb nodes stop fuel n ≠ .diverge := by
  intro fuel
  induction fuel with
  | zero => intro n hn; omega
  | succ fuel ih =>
    intro n hn
    simp only [Syntree.climb]
    cases hq : nodeParent nodes n with
    | none => simp
    | some q =>
      simp only
      split
      · simp
      · split
        · simp
        · have := (h.parent_dep hd hq).1
          exact ih q (by omega)

theorem Own.siblings (h : Own nodes own rank) : ∀ (k n : Nat), n < nodes.length →
    nodes.length - n ≤ k →
    ∃ l, Yields (Siblings.next nodes) (some n) l ∧ l.Pairwise (· < ·) ∧
      ∀ x ∈ l, n ≤ x ∧ x < nodes.length := by
  intro k
  induction k with
  | zero => intro n hl hn; omega
  | succ k ih =>
    intro n hl hn
    cases hq : nodeNext nodes n with
    | none =>
      refine ⟨[n], .item (s' := none) (by simp [Siblings.next, hq]) (.done (s' := none) rfl), by simp, ?_⟩
      intro x hx; simp at hx; subst hx; exact ⟨Nat.le_refl _, hl⟩
    | some q =>
      have := h.next_lt hq
      obtain ⟨l, h1, h2, h3⟩ := ih q this.2 (by omega)
      refine ⟨n :: l, .item (s' := some q) (by simp [Siblings.next, hq]) h1, ?_, ?_⟩
      · refine List.pairwise_cons.2 ⟨?_, h2⟩
        intro x hx; have := (h3 x hx).1; omega
      · intro x hx
        rcases List.mem_cons.1 hx with rfl | hx
        · exact ⟨Nat.le_refl _, hl⟩
        · have := h3 x hx; exact ⟨by omega, this.2⟩

theorem Own.ancestors (h : Own nodes own rank) {dep : Nat → Nat} (hd : Dep own dep) :
    ∀ (k n : Nat), n < nodes.length → dep n ≤ k →
    ∃ l, Yields (Ancestors.next nodes) (some n) l ∧ l.Nodup ∧
      ∀ x ∈ l, dep x ≤ dep n ∧ x < nodes.length := by
  intro k
  induction k with
  | zero =>
    intro n hl hn
    cases hq : nodeParent nodes n with
    | none =>
      refine ⟨[n], .item (s' := none) (by simp [Ancestors.next, hq]) (.done (s' := none) rfl), by simp, ?_⟩
      intro x hx; simp at hx; subst hx; exact ⟨Nat.le_refl _, hl⟩
    | some q => have := (h.parent_dep hd hq).1; omega
  | succ k ih =>
    intro n hl hn
    cases hq : nodeParent nodes n with
    | none =>
      refine ⟨[n], .item (s' := none) (by simp [Ancestors.next, hq]) (.done (s' := none) rfl), by simp, ?_⟩
      intro x hx; simp at hx; subst hx; exact ⟨Nat.le_refl _, hl⟩
    | some q =>
      have := h.parent_dep hd hq
      obtain ⟨l, h1, h2, h3⟩ := ih q this.2 (by omega)
      refine ⟨n :: l, .item (s' := some q) (by simp [Ancestors.next, hq]) h1, ?_, ?_⟩
      · refine List.nodup_cons.2 ⟨?_, h2⟩
        intro hx; have := (h3 n hx).1; omega
      · intro x hx
        rcases List.mem_cons.1 hx with rfl | hx
        · exact ⟨Nat.le_refl _, hl⟩
        · have := h3 x hx; exact ⟨by omega, this.2⟩

/-! ### Children -/

/-- The number of items a `Children` can still return. -/
def Children.room (N : Nat) (c : Children) : Nat :=
  (match c.first with | some f => N - f | none => 0) + (match c.last with | some l => min (l + 1) N | none => 0)

theorem Own.children_next (h : Own nodes own rank) {c c' : Children} {x : Nat}
    (e : Children.next nodes c = (c', .some x)) :
    c'.room nodes.length < c.room nodes.length ∧ x < nodes.length ∧ c.first = some x ∧
      (∀ y, c'.first = some y → x < y) := by
  unfold Children.next at e
  split at e
  · simp at e
  · rename_i f hf
    split at e
    · simp at e
    · rename_i l hl
      have hfl := get_lt hl
      simp only at e
      split at e
      · simp at e
      · rename_i la hla
        split at e
        · simp at e
          obtain ⟨rfl, rfl⟩ := e
          refine ⟨?_, hfl, hf, ?_⟩
          · simp only [Children.room, hf]
            cases hx : l.next with
            | none => simp only; omega
            | some m =>
              have := h.next _ l m hl hx
              simp only; omega
          · intro y hy
            exact (h.next _ l y hl hy).1
        · simp at e
          obtain ⟨rfl, rfl⟩ := e
          refine ⟨?_, hfl, hf, by simp⟩
          simp only [Children.room, hf]; omega

theorem Own.children_next_back (h : Own nodes own rank) {c c' : Children} {x : Nat}
    (e : Children.nextBack nodes c = (c', .some x)) :
    c'.room nodes.length < c.room nodes.length ∧ x < nodes.length ∧ c.last = some x ∧
      (∀ y, c'.last = some y → y < x) := by
  unfold Children.nextBack at e
  split at e
  · simp at e
  · rename_i f hf
    split at e
    · simp at e
    · rename_i l hl
      have hfl := get_lt hl
      simp only at e
      split at e
      · simp at e
      · rename_i la hla
        split at e
        · simp at e
          obtain ⟨rfl, rfl⟩ := e
          have hp : ∀ y, l.prev = some y → y < f := by
            intro y hy
            obtain ⟨lp, h1, h2⟩ := h.prev _ l y hl hy
            exact (h.next y lp _ h1 h2).1
          refine ⟨?_, hfl, hf, fun y hy => hp y hy⟩
          simp only [Children.room, hf]
          cases hx : l.prev with
          | none => simp only; omega
          | some m =>
            have := hp m hx
            simp only; omega
        · simp at e
          obtain ⟨rfl, rfl⟩ := e
          refine ⟨?_, hfl, hf, by simp⟩
          simp only [Children.room, hf]; omega

theorem children_no_diverge (nodes : Slice α) (c : Children) :
    (Children.next nodes c).2 ≠ .diverge ∧ (Children.nextBack nodes c).2 ≠ .diverge := by
  constructor
  · unfold Children.next
    split
    · simp
    · split
      · simp
      · simp only
        split
        · simp
        · split <;> simp
  · unfold Children.nextBack
    split
    · simp
    · split
      · simp
      · simp only
        split
        · simp
        · split <;> simp

theorem Own.children_forward (h : Own nodes own rank) : ∀ (k : Nat) (c : Children),
    c.room nodes.length ≤ k → ∃ l, Yields (Children.next nodes) c l ∧ l.Pairwise (· < ·) ∧
      ∀ x ∈ l, x < nodes.length ∧ ∀ y, c.first = some y → y ≤ x := by
  intro k
  induction k with
  | zero =>
    intro c hc
    rcases hx : Children.next nodes c with ⟨c', g⟩
    cases g with
    | none => exact ⟨[], .done hx, by simp, by simp⟩
    | some x => have := (h.children_next hx).1; omega
    | diverge => have := (children_no_diverge nodes c).1; rw [hx] at this; exact absurd rfl this
  | succ k ih =>
    intro c hc
    rcases hx : Children.next nodes c with ⟨c', g⟩
    cases g with
    | none => exact ⟨[], .done hx, by simp, by simp⟩
    | diverge => have := (children_no_diverge nodes c).1; rw [hx] at this; exact absurd rfl this
    | some x =>
      obtain ⟨h1, h2, h3, h4⟩ := h.children_next hx
      obtain ⟨l, g1, g2, g3⟩ := ih c' (by omega)
      have hgt : ∀ y ∈ l, x < y := by
        intro y hy
        cases hf : c'.first with
        | some z =>
          have := (g3 y hy).2 z hf
          have := h4 z hf
          omega
        | none =>
          cases g1 with
          | done _ => simp at hy
          | item e _ => simp [Children.next, hf] at e
      refine ⟨x :: l, .item hx g1, List.pairwise_cons.2 ⟨hgt, g2⟩, ?_⟩
      intro y hy
      rcases List.mem_cons.1 hy with rfl | hy
      · refine ⟨h2, ?_⟩
        intro z hz; rw [h3] at hz; simp at hz; omega
      · refine ⟨(g3 y hy).1, ?_⟩
        intro z hz
        rw [h3] at hz; simp at hz
        have := hgt y hy; omega

theorem Own.children_backward (h : Own nodes own rank) : ∀ (k : Nat) (c : Children),
    c.room nodes.length ≤ k → ∃ l, Yields (Children.nextBack nodes) c l ∧ l.Pairwise (· > ·) ∧
      ∀ x ∈ l, x < nodes.length ∧ ∀ y, c.last = some y → x ≤ y := by
  intro k
  induction k with
  | zero =>
    intro c hc
    rcases hx : Children.nextBack nodes c with ⟨c', g⟩
    cases g with
    | none => exact ⟨[], .done hx, by simp, by simp⟩
    | some x => have := (h.children_next_back hx).1; omega
    | diverge => have := (children_no_diverge nodes c).2; rw [hx] at this; exact absurd rfl this
  | succ k ih =>
    intro c hc
    rcases hx : Children.nextBack nodes c with ⟨c', g⟩
    cases g with
    | none => exact ⟨[], .done hx, by simp, by simp⟩
    | diverge => have := (children_no_diverge nodes c).2; rw [hx] at this; exact absurd rfl this
    | some x =>
      obtain ⟨h1, h2, h3, h4⟩ := h.children_next_back hx
      obtain ⟨l, g1, g2, g3⟩ := ih c' (by omega)
      have hgt : ∀ y ∈ l, x > y := by
        intro y hy
        cases hf : c'.last with
        | some z =>
          have := (g3 y hy).2 z hf
          have := h4 z hf
          omega
        | none =>
          cases g1 with
          | done _ => simp at hy
          | item e _ => simp [Children.nextBack, hf] at e
      refine ⟨x :: l, .item hx g1, List.pairwise_cons.2 ⟨hgt, g2⟩, ?_⟩
      intro y hy
      rcases List.mem_cons.1 hy with rfl | hy
      · refine ⟨h2, ?_⟩
        intro z hz; rw [h3] at hz; simp at hz; omega
      · refine ⟨(g3 y hy).1, ?_⟩
        intro z hz
        rw [h3] at hz; simp at hz
        have := hgt y hy; omega

/-! ### `Inside` -/

theorem Rest.insideOne {w : WalkEvents} {l : List (Int × Event × Nat)} (h : Rest nodes w l) :
    ∀ fuel, ups l < fuel →
    (∃ w', Inside.nextLoop nodes fuel w = (w', .none)) ∨
    (∃ n w' l', Inside.nextLoop nodes fuel w = (w', .some n) ∧ Rest nodes w' l' ∧
      ups l' ≤ ups l ∧ l'.length < l.length ∧ (n :: ins l').Sublist (ins l)) := by
  induction h with
  | @done w hn =>
    intro fuel hf
    left
    cases fuel with
    | zero => omega
    | succ fuel => exact ⟨w, by simp [Inside.nextLoop, next_of_none hn]⟩
  | @item w w' e n l he hr ih =>
    intro fuel hf
    cases fuel with
    | zero => omega
    | succ fuel =>
      rw [ups_cons] at hf
      by_cases hu : e = .up
      · subst hu
        simp only [if_true] at hf
        by_cases hd : w'.depth ≤ 0
        · left
          refine ⟨WalkEvents.default, ?_⟩
          cases fuel with
          | zero => omega
          | succ fuel =>
            have hd' : WalkEvents.next nodes WalkEvents.default = (WalkEvents.default, .none) := rfl
            simp [Inside.nextLoop, he, hd, hd']
        · have hstep : Inside.nextLoop nodes (fuel + 1) w = Inside.nextLoop nodes fuel w' := by
            simp [Inside.nextLoop, he, hd]
          rw [hstep, ins_up, ups_cons]
          rcases ih fuel (by omega) with g | ⟨m, w'', l', g1, g2, g3, g4, g5⟩
          · exact .inl g
          · exact .inr ⟨m, w'', l', g1, g2, by omega, by simp; omega, g5⟩
      · right
        rw [ins_other _ hu, ups_cons]
        by_cases hd : w'.depth ≤ 0
        · refine ⟨n, WalkEvents.default, [], by simp [Inside.nextLoop, he, hd, hu], .done rfl,
            by simp [ups], by simp, ?_⟩
          exact (List.nil_sublist _).cons_cons _
        · refine ⟨n, w', l, by simp [Inside.nextLoop, he, hd, hu], hr, by omega, by simp,
            List.Sublist.refl _⟩

theorem Rest.insideAll (fuel : Nat) (k : Nat) : ∀ {w : WalkEvents} {l : List (Int × Event × Nat)},
    Rest nodes w l → l.length ≤ k → ups l < fuel →
    ∃ v, Yields (Inside.nextLoop nodes fuel) w v ∧ v.Sublist (ins l) := by
  induction k with
  | zero =>
    intro w l h hk hf
    rcases h.insideOne fuel hf with ⟨w', g⟩ | ⟨n, w', l', g1, g2, g3, g4, g5⟩
    · exact ⟨[], .done g, List.nil_sublist _⟩
    · omega
  | succ k ih =>
    intro w l h hk hf
    rcases h.insideOne fuel hf with ⟨w', g⟩ | ⟨n, w', l', g1, g2, g3, g4, g5⟩
    · exact ⟨[], .done g, List.nil_sublist _⟩
    · obtain ⟨v, v1, v2⟩ := ih g2 (by omega) (by omega)
      exact ⟨n :: v, .item g1 v1, (v2.cons_cons n).trans g5⟩

end

end Syntree
