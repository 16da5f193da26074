import Verif.Proof.CloneOld
import Verif.Spec.Family

/-! Builders that do not get at each other's checkpoints behave as if they were alone. -/

namespace Syntree

variable {α : Type} {fl : Flavor}

/-- A cell a builder may use. -/
def Used (s : Sys α) (a : List Nat) (c : Nat) : Prop := ∃ n ∈ a, s.handles[n]? = some c

/-- The builder `S` of a world behaves like the lone system `s`; `φ` maps the cells of `s` that the
builder may use (by the checkpoints `a`), and the cached one, to cells of `S`. The cells in `K` are
used by no builder. -/
structure Twin (K : Nat → Prop) (S : Sys α) (ow : List Nat) (s : Sys α) (a : List Nat)
    (φ : Nat → Nat) : Prop where
  bld : S.b = s.b.ck (s.b.checkpoint.map φ)
  len : ow.length = s.handles.length
  may : ∀ n ∈ a, n < s.handles.length
  own : ∀ n ∈ a, ∀ c, s.handles[n]? = some c → ∃ g : Nat, ow[n]? = some g ∧
    S.handles[g]? = some (φ c)
  same : ∀ c, Used s a c → c < s.cells.length ∧ φ c < S.cells.length ∧
    S.cells[φ c]? = s.cells[c]?
  inj : ∀ c c', Used s a c → Used s a c' → φ c = φ c' → c = c'
  cached : ∀ c, s.b.checkpoint = some c → Used s a c ∨ (K (φ c) ∧ ∃ cell cell' : Cell,
    s.cells[c]? = some cell ∧ S.cells[φ c]? = some cell' ∧
    cell.node < s.b.tree.len ∧ cell'.node < s.b.tree.len)
  apart : ∀ x, K x → x < S.cells.length ∧ ∀ c, Used s a c → φ c ≠ x

/-- What a step of `S` leaves alone. -/
structure Spares (S S' s : Sys α) (a : List Nat) (s' : Sys α) (a' : List Nat)
    (φ φ' : Nat → Nat) : Prop where
  cells : ∀ x, x < S.cells.length → (∀ c, Used s a c → φ c ≠ x) → S'.cells[x]? = S.cells[x]?
  more : S.cells.length ≤ S'.cells.length
  handles : ∀ g : Nat, g < S.handles.length → S'.handles[g]? = S.handles[g]?
  new : ∀ c, Used s' a' c → (Used s a c ∧ φ' c = φ c) ∨ S.cells.length ≤ φ' c

/-- The checkpoints a builder may use after a call. -/
def mayAfter (a : List Nat) : Except Err Out → List Nat
  | .ok (.handle n) => a ++ [n]
  | _ => a

theorem lift_mayAfter {s : Sys α} {a : List Nat} {β : Type} (f : β → Out) (r : Res α β)
    (hf : ∀ x g, f x ≠ .handle g) : mayAfter a (s.lift f r).2 = a := by
  obtain ⟨b, _ | x⟩ := r
  · rfl
  · simp only [Sys.lift, Except.map, mayAfter]
    cases hx : f x with
    | handle g => exact absurd hx (hf x g)
    | id i => rfl
    | unit => rfl

/-- What is to be shown of a call. -/
def TwinStep (fl : Flavor) (K : Nat → Prop) (S s : Sys α) (ow a : List Nat) (φ : Nat → Nat)
    (op' op : Op α) : Prop :=
  ∃ φ', Twin K (S.step fl op').1 (locally ow (S.step fl op').2).2 (s.step fl op).1
      (mayAfter a (s.step fl op).2) φ' ∧
    (locally ow (S.step fl op').2).1 = (s.step fl op).2 ∧
    Spares S (S.step fl op').1 s a (s.step fl op).1 (mayAfter a (s.step fl op).2) φ φ'

theorem Twin.plain {K : Nat → Prop} {S s : Sys α} {ow a : List Nat} {φ : Nat → Nat} {op : Op α}
    (h : Twin K S ow s a φ) {β : Type} (f : β → Out) (m : Builder α → Res α β)
    (hf : ∀ x g, f x ≠ .handle g)
    (hm : ∀ b c, m (b.ck c) = ((m b).1.ck c, (m b).2))
    (e : ∀ S : Sys α, S.step fl op = S.lift f (m S.b)) : TwinStep fl K S s ow a φ op op := by
  have hl := Sys.step_len_le (fl := fl) s op
  have hk : (m s.b).1.checkpoint = s.b.checkpoint := by
    have := hm s.b s.b.checkpoint
    rw [show s.b.ck s.b.checkpoint = s.b from rfl] at this
    exact ck_checkpoint (congrArg Prod.fst this).symm
  have hb : m S.b = ((m s.b).1.ck (s.b.checkpoint.map φ), (m s.b).2) := by rw [h.bld, hm]
  unfold TwinStep
  rw [e s] at hl
  rw [e S, e s, lift_locally f _ hf, lift_mayAfter f _ hf]
  refine ⟨φ, ⟨?_, h.len, h.may, h.own, h.same, h.inj, ?_, h.apart⟩, ?_, ?_⟩
  · simp only [Sys.lift, hb, hk]
  · intro c hc
    simp only [Sys.lift, hk] at hc hl ⊢
    rcases h.cached c hc with h' | ⟨h1, cell, cell', h2, h3, h4, h5⟩
    · exact .inl h'
    · exact .inr ⟨h1, cell, cell', h2, h3, Nat.lt_of_lt_of_le h4 hl, Nat.lt_of_lt_of_le h5 hl⟩
  · simp only [Sys.lift, hb]
  · exact ⟨fun _ _ _ => rfl, Nat.le_refl _, fun _ _ => rfl, fun c hc => .inl ⟨hc, rfl⟩⟩

theorem Twin.closeAt {K : Nat → Prop} {S s : Sys α} {ow a : List Nat} {φ : Nat → Nat}
    (h : Twin K S ow s a φ) {c : Nat} (hc : Used s a c) (d : α) (e : Option Span)
    {r : Cells × Res α Nat} (hr : s.b.closeAtCore fl s.cells c d e = r)
    {R : Cells × Res α Nat} (hR : S.b.closeAtCore fl S.cells (φ c) d e = R) :
    Twin K ⟨R.2.1, R.1, S.handles⟩ ow ⟨r.2.1, r.1, s.handles⟩ a φ ∧ R.2.2 = r.2.2 ∧
      Spares S ⟨R.2.1, R.1, S.handles⟩ s a ⟨r.2.1, r.1, s.handles⟩ a φ φ := by
  obtain ⟨c1, c2, c4⟩ := h.same c hc
  obtain ⟨y, y1, y2, y3⟩ := closeAtCore_ck (fl := fl) s.b (s.b.checkpoint.map φ) s.cells S.cells c
    (φ c) c4 d e
  have hk := closeAtCore_checkpoint (fl := fl) s.b s.cells c d e
  have hl := closeAtCore_len_le (fl := fl) s.b s.cells c d e
  rw [← h.bld, hR] at y2 y3
  rw [hr] at y1 y3 hk hl
  obtain ⟨rc, rb, ro⟩ := r
  obtain ⟨Rc, Rb, Ro⟩ := R
  simp only at *
  subst y1 y2
  simp only [Prod.mk.injEq] at y3
  obtain ⟨rfl, rfl⟩ := y3
  refine ⟨⟨?_, h.len, h.may, h.own, ?_, h.inj, ?_, ?_⟩, rfl, ?_⟩
  · simp only [hk]
  · intro x hx
    have hx : Used s a x := hx
    obtain ⟨a1, a2, a3⟩ := h.same x hx
    simp only [upd_length]
    refine ⟨a1, a2, ?_⟩
    by_cases hxc : x = c
    · subst hxc; exact getElem?_upd_self c4
    · rw [getElem?_upd hxc, getElem?_upd (fun e => hxc (h.inj _ _ hx hc e))]; exact a3
  · intro x hx
    simp only [hk] at hx
    rcases h.cached x hx with h' | ⟨h1, cell, cell', h2, h3, h4, h5⟩
    · exact .inl h'
    · refine .inr ⟨h1, cell, cell', ?_, ?_, Nat.lt_of_lt_of_le h4 hl, Nat.lt_of_lt_of_le h5 hl⟩
      · have : x ≠ c := by rintro rfl; exact (h.apart _ h1).2 _ hc rfl
        simp only; rw [getElem?_upd this]; exact h2
      · have : φ x ≠ φ c := fun e => (h.apart _ h1).2 _ hc e.symm
        simp only; rw [getElem?_upd this]; exact h3
  · simp only [upd_length]; exact h.apart
  · refine ⟨fun x _ hx => ?_, ?_, fun _ _ => rfl, fun c hc => .inl ⟨hc, rfl⟩⟩
    · exact getElem?_upd (fun e => hx c hc e.symm)
    · simp only [upd_length]; exact Nat.le_refl _

/-- A cell that is used is handed out once more. -/
theorem Twin.hand {K : Nat → Prop} {S s : Sys α} {ow a : List Nat} {φ : Nat → Nat}
    (h : Twin K S ow s a φ) {c : Nat} (hc : Used s a c) :
    Twin K ⟨S.b, S.cells, S.handles ++ [φ c]⟩ (ow ++ [S.handles.length])
      ⟨s.b, s.cells, s.handles ++ [c]⟩ (a ++ [s.handles.length]) φ ∧
    Spares S ⟨S.b, S.cells, S.handles ++ [φ c]⟩ s a ⟨s.b, s.cells, s.handles ++ [c]⟩
      (a ++ [s.handles.length]) φ φ := by
  have hu : ∀ x, Used (⟨s.b, s.cells, s.handles ++ [c]⟩ : Sys α) (a ++ [s.handles.length]) x →
      Used s a x := by
    rintro x ⟨n, hn, hx⟩
    simp only [List.mem_append, List.mem_singleton] at hn hx
    rcases hn with hn | rfl
    · rw [List.getElem?_append_left (h.may n hn)] at hx
      exact ⟨n, hn, hx⟩
    · simp only [List.getElem?_concat_length, Option.some.injEq] at hx
      exact hx ▸ hc
  have hu' : ∀ x, Used s a x →
      Used (⟨s.b, s.cells, s.handles ++ [c]⟩ : Sys α) (a ++ [s.handles.length]) x := by
    rintro x ⟨n, hn, hx⟩
    exact ⟨n, List.mem_append_left _ hn, by
      simp only; rw [List.getElem?_append_left (h.may n hn)]; exact hx⟩
  refine ⟨⟨h.bld, ?_, ?_, ?_, fun x hx => h.same x (hu x hx),
    fun x y hx hy => h.inj x y (hu x hx) (hu y hy), ?_,
    fun x hx => ⟨(h.apart x hx).1, fun c hc => (h.apart x hx).2 c (hu c hc)⟩⟩,
    ⟨fun _ _ _ => rfl, Nat.le_refl _, ?_, fun x hx => .inl ⟨hu x hx, rfl⟩⟩⟩
  · simp [h.len]
  · intro n hn
    simp only [List.mem_append, List.mem_singleton, List.length_append, List.length_cons,
      List.length_nil] at hn ⊢
    rcases hn with hn | rfl
    · have := h.may n hn; omega
    · omega
  · intro n hn x hx
    simp only [List.mem_append, List.mem_singleton] at hn hx
    rcases hn with hn | rfl
    · have hlt := h.may n hn
      rw [List.getElem?_append_left hlt] at hx
      obtain ⟨g, g1, g2⟩ := h.own n hn x hx
      refine ⟨g, ?_, ?_⟩
      · rw [List.getElem?_append_left (get_lt g1)]; exact g1
      · simp only; rw [List.getElem?_append_left (get_lt g2)]; exact g2
    · simp only [List.getElem?_concat_length, Option.some.injEq] at hx
      subst hx
      exact ⟨S.handles.length, by rw [← h.len]; simp, by simp⟩
  · intro x hx
    rcases h.cached x hx with h' | h'
    · exact .inl (hu' x h')
    · exact .inr h'
  · intro g hg; simp only; rw [List.getElem?_append_left hg]

/-- A new cell is handed out. -/
theorem Twin.fresh {K : Nat → Prop} {S s : Sys α} {ow a : List Nat} {φ : Nat → Nat}
    (h : Twin K S ow s a φ) (cell : Cell) :
    ∃ φ', Twin K ⟨S.b.ck (some S.cells.length), S.cells ++ [cell], S.handles ++ [S.cells.length]⟩
        (ow ++ [S.handles.length])
        ⟨s.b.ck (some s.cells.length), s.cells ++ [cell], s.handles ++ [s.cells.length]⟩
        (a ++ [s.handles.length]) φ' ∧
      Spares S ⟨S.b.ck (some S.cells.length), S.cells ++ [cell], S.handles ++ [S.cells.length]⟩ s a
        ⟨s.b.ck (some s.cells.length), s.cells ++ [cell], s.handles ++ [s.cells.length]⟩
        (a ++ [s.handles.length]) φ φ' := by
  have hu : ∀ x, Used (⟨s.b.ck (some s.cells.length), s.cells ++ [cell],
      s.handles ++ [s.cells.length]⟩ : Sys α) (a ++ [s.handles.length]) x →
      (Used s a x ∧ x < s.cells.length) ∨ x = s.cells.length := by
    rintro x ⟨n, hn, hx⟩
    simp only [List.mem_append, List.mem_singleton] at hn hx
    rcases hn with hn | rfl
    · rw [List.getElem?_append_left (h.may n hn)] at hx
      exact .inl ⟨⟨n, hn, hx⟩, (h.same x ⟨n, hn, hx⟩).1⟩
    · simp only [List.getElem?_concat_length, Option.some.injEq] at hx
      exact .inr hx.symm
  refine ⟨fun x => if x = s.cells.length then S.cells.length else φ x,
    ⟨?_, ?_, ?_, ?_, ?_, ?_, ?_, ?_⟩, ⟨?_, by simp, ?_, ?_⟩⟩
  · simp only [Builder.ck, Option.map_some, if_true]
    rw [h.bld]; rfl
  · simp [h.len]
  · intro n hn
    simp only [List.mem_append, List.mem_singleton, List.length_append, List.length_cons,
      List.length_nil] at hn ⊢
    rcases hn with hn | rfl
    · have := h.may n hn; omega
    · omega
  · intro n hn x hx
    simp only [List.mem_append, List.mem_singleton] at hn hx
    rcases hn with hn | rfl
    · have hlt := h.may n hn
      rw [List.getElem?_append_left hlt] at hx
      have hx' := (h.same x ⟨n, hn, hx⟩).1
      obtain ⟨g, g1, g2⟩ := h.own n hn x hx
      refine ⟨g, ?_, ?_⟩
      · rw [List.getElem?_append_left (get_lt g1)]; exact g1
      · simp only; rw [List.getElem?_append_left (get_lt g2), if_neg (by omega)]; exact g2
    · simp only [List.getElem?_concat_length, Option.some.injEq] at hx
      subst hx
      exact ⟨S.handles.length, by rw [← h.len]; simp, by simp⟩
  · intro x hx
    rcases hu x hx with ⟨hx, hx'⟩ | rfl
    · obtain ⟨a1, a2, a3⟩ := h.same x hx
      simp only [List.length_append, List.length_cons, List.length_nil]
      rw [if_neg (by omega), List.getElem?_append_left a2, List.getElem?_append_left a1]
      exact ⟨by omega, by omega, a3⟩
    · simp
  · intro x y hx hy e
    rcases hu x hx with ⟨hx, hx'⟩ | rfl <;> rcases hu y hy with ⟨hy, hy'⟩ | rfl
    · rw [if_neg (by omega), if_neg (by omega)] at e
      exact h.inj x y hx hy e
    · rw [if_neg (by omega), if_pos rfl] at e
      have := (h.same x hx).2.1; omega
    · rw [if_pos rfl, if_neg (by omega)] at e
      have := (h.same y hy).2.1; omega
    · rfl
  · intro x hx
    simp only [Builder.ck, Option.some.injEq] at hx
    subst hx
    exact .inl ⟨s.handles.length, by simp, by simp⟩
  · intro x hx
    obtain ⟨k1, k2⟩ := h.apart x hx
    refine ⟨by simp; omega, fun c hc e => ?_⟩
    rcases hu c hc with ⟨hc, hc'⟩ | rfl
    · rw [if_neg (by omega)] at e; exact k2 c hc e
    · rw [if_pos rfl] at e; omega
  · intro x hx _; simp only; rw [List.getElem?_append_left hx]
  · intro g hg; simp only; rw [List.getElem?_append_left hg]
  · intro x hx
    rcases hu x hx with ⟨hx, hx'⟩ | rfl
    · exact .inl ⟨hx, if_neg (by omega)⟩
    · right; simp

theorem Twin.checkpoint {K : Nat → Prop} {S s : Sys α} {ow a : List Nat} {φ : Nat → Nat}
    (h : Twin K S ow s a φ) : TwinStep fl K S s ow a φ .checkpoint .checkpoint := by
  unfold TwinStep
  have ht : S.b.tree = s.b.tree := by rw [h.bld]; rfl
  cases hn : ptrNew fl.width s.b.tree.len with
  | none =>
    simp only [Sys.step, Builder.mkCheckpoint, ht, hn]
    exact ⟨φ, h, rfl, fun _ _ _ => rfl, Nat.le_refl _, fun _ _ => rfl, fun c hc => .inl ⟨hc, rfl⟩⟩
  | some node =>
    have hnode := ptrNew_some hn
    have key : (∃ c, s.b.checkpoint = some c ∧ s.b.mkCheckpoint fl s.cells = (s.cells, s.b, .ok c) ∧
        S.b.mkCheckpoint fl S.cells = (S.cells, S.b, .ok (φ c)) ∧ Used s a c) ∨
        (s.b.mkCheckpoint fl s.cells = (s.cells ++ [⟨node, s.b.parent⟩],
          s.b.ck (some s.cells.length), .ok s.cells.length) ∧
        S.b.mkCheckpoint fl S.cells = (S.cells ++ [⟨node, s.b.parent⟩],
          S.b.ck (some S.cells.length), .ok S.cells.length)) := by
      rw [h.bld]
      simp only [Builder.mkCheckpoint, hn, show ∀ x, (s.b.ck x).tree = s.b.tree from fun _ => rfl,
        show ∀ x, (s.b.ck x).parent = s.b.parent from fun _ => rfl,
        show ∀ x, (s.b.ck x).checkpoint = x from fun _ => rfl]
      cases hc : s.b.checkpoint with
      | none => right; simp [Builder.ck]
      | some c =>
        simp only [Option.map_some]
        rcases h.cached c hc with hu | ⟨hK, cell, cell', c2, c3, c4, c5⟩
        · obtain ⟨u1, u2, u3⟩ := h.same c hu
          rw [u3, List.getElem?_eq_getElem u1]
          simp only
          by_cases ht : s.cells[c].node = node ∧ s.cells[c].parent = s.b.parent
          · left
            refine ⟨c, rfl, ?_, ?_, hu⟩
            · rw [if_pos ht]
            · rw [if_pos ht]
          · right; rw [if_neg ht, if_neg ht]; exact ⟨rfl, rfl⟩
        · right
          rw [c2, c3]
          simp only
          have hne : ¬ (cell.node = node ∧ cell.parent = s.b.parent) := fun hh => by omega
          have hne' : ¬ (cell'.node = node ∧ cell'.parent = s.b.parent) := fun hh => by omega
          rw [if_neg hne, if_neg hne']
          exact ⟨rfl, rfl⟩
    simp only [Sys.step]
    rcases key with ⟨c, k0, k1, k2, k3⟩ | ⟨k1, k2⟩
    · rw [k1, k2]
      simp only [locally, mayAfter]
      obtain ⟨g1, g2⟩ := h.hand k3
      exact ⟨φ, g1, by rw [h.len], g2⟩
    · rw [k1, k2]
      simp only [locally, mayAfter]
      obtain ⟨φ', g1, g2⟩ := h.fresh ⟨node, s.b.parent⟩
      exact ⟨φ', g1, by rw [h.len], g2⟩

/-- One call. -/
theorem Twin.step {K : Nat → Prop} {S s : Sys α} {ow a : List Nat} {φ : Nat → Nat}
    (h : Twin K S ow s a φ) (op : Op α) (hop : ∀ n d e, UsesAt op n d e → n ∈ a) :
    TwinStep fl K S s ow a φ (op.globally ow S.handles.length) op := by
  have hat : ∀ (n : Nat) (d : α) (e : Option Span) (op op' : Op α), n ∈ a →
      (∀ T : Sys α, T.step fl op = match T.handles[n]? with
        | none => (T, .ok .unit)
        | some c => (⟨(T.b.closeAtCore fl T.cells c d e).2.1,
            (T.b.closeAtCore fl T.cells c d e).1, T.handles⟩,
            (T.b.closeAtCore fl T.cells c d e).2.2.map .id)) →
      (∀ T : Sys α, T.step fl op' = match T.handles[ow[n]?.getD S.handles.length]? with
        | none => (T, .ok .unit)
        | some c => (⟨(T.b.closeAtCore fl T.cells c d e).2.1,
            (T.b.closeAtCore fl T.cells c d e).1, T.handles⟩,
            (T.b.closeAtCore fl T.cells c d e).2.2.map .id)) →
      TwinStep fl K S s ow a φ op' op := by
    intro n d e op op' hn e1 e2
    unfold TwinStep
    have hs : s.handles[n]? = some (s.handles[n]'(h.may n hn)) := List.getElem?_eq_getElem _
    generalize s.handles[n]'(h.may n hn) = c at hs
    obtain ⟨g, g1, g2⟩ := h.own n hn c hs
    rw [e1 s, e2 S, hs, g1, Option.getD_some, g2]
    simp only
    obtain ⟨a1, a2, a3⟩ := h.closeAt (fl := fl) ⟨n, hn, hs⟩ d e rfl rfl
    have hloc : ∀ r : Except Err Nat, locally ow (r.map .id) = (r.map .id, ow) := by
      intro r; cases r <;> rfl
    have hmay : ∀ r : Except Err Nat, mayAfter a (r.map .id) = a := by
      intro r; cases r <;> rfl
    rw [hloc, hmay, a2]
    exact ⟨φ, a1, rfl, a3⟩
  cases op with
  | «open» d =>
    exact h.plain .id (fun b => b.open fl d) (by simp) (fun b c => open_ck b c d)
      (fun _ => rfl)
  | openWith d sp =>
    exact h.plain .id (fun b => b.openWith fl d sp) (by simp)
      (fun b c => openWith_ck b c d sp) (fun _ => rfl)
  | close =>
    exact h.plain (fun _ => .unit) (fun b => b.close) (by simp)
      (fun b c => close_ck b c) (fun _ => rfl)
  | token d n =>
    exact h.plain .id (fun b => b.token fl d n) (by simp)
      (fun b c => token_ck b c d n) (fun _ => rfl)
  | tokenEmpty d =>
    exact h.plain .id (fun b => b.token fl d 0) (by simp)
      (fun b c => token_ck b c d 0) (fun _ => rfl)
  | tokenWith d sp =>
    exact h.plain .id (fun b => b.tokenWith fl d sp) (by simp)
      (fun b c => tokenWith_ck b c d sp) (fun _ => rfl)
  | checkpoint => exact h.checkpoint
  | closeAt n d =>
    exact hat n d none _ _ (hop n d none (.closeAt n d)) (fun _ => rfl) (fun _ => rfl)
  | closeAtWith n d sp =>
    exact hat n d (some sp) _ _ (hop n d (some sp) (.closeAtWith n d sp)) (fun _ => rfl)
      (fun _ => rfl)
  | setCursor i =>
    exact h.plain (fun _ => .unit) (fun b => (b.setCursor i, .ok ())) (by simp)
      (fun b c => rfl) (fun _ => rfl)

/-- Steps of other builders. -/
theorem Twin.other {K : Nat → Prop} {S S' T s t t' : Sys α} {ow a c c' : List Nat}
    {φ ψ ψ' : Nat → Nat} (h : Twin K S ow s a φ) (hf : Spares T S' t c t' c' ψ ψ')
    (hc : S.cells = T.cells) (hh : S.handles = T.handles)
    (hd : ∀ x y, Used s a x → Used t c y → φ x ≠ ψ y)
    (hK : ∀ x y, K x → Used t c y → ψ y ≠ x) :
    Twin K ⟨S.b, S'.cells, S'.handles⟩ ow s a φ := by
  refine ⟨h.bld, h.len, h.may, ?_, ?_, h.inj, ?_, ?_⟩
  · intro n hn x hx
    obtain ⟨g, g1, g2⟩ := h.own n hn x hx
    refine ⟨g, g1, ?_⟩
    simp only
    rw [hf.handles g (by rw [← hh]; exact get_lt g2), ← hh]; exact g2
  · intro x hx
    obtain ⟨a1, a2, a3⟩ := h.same x hx
    have := hf.more
    rw [← hc] at this
    refine ⟨a1, by simp only; omega, ?_⟩
    simp only
    rw [hf.cells (φ x) (by rw [← hc]; exact a2) (fun y hy e => hd x y hx hy e.symm), ← hc]
    exact a3
  · intro x hx
    rcases h.cached x hx with h' | ⟨h1, cell, cell', h2, h3, h4, h5⟩
    · exact .inl h'
    · refine .inr ⟨h1, cell, cell', h2, ?_, h4, h5⟩
      simp only
      rw [hf.cells (φ x) (by rw [← hc]; exact get_lt h3) (fun y hy => hK _ y h1 hy), ← hc]
      exact h3
  · intro x hx
    obtain ⟨k1, k2⟩ := h.apart x hx
    have := hf.more
    rw [← hc] at this
    exact ⟨by simp only; omega, k2⟩

/-! ## All builders of a program -/

/-- The lone builder with this history. -/
def loneOf (h : Flavor × List (Op α)) : Sys α := (Sys.init.run h.1 h.2).1

/-- Every builder behaves like the lone one with the same history. -/
structure Family (w : World α) (own : List (List Nat)) (H : List (Flavor × List (Op α)))
    (may : List (List Nat)) : Prop where
  lens : w.builders.length = H.length ∧ own.length = H.length ∧ may.length = H.length
  twins : ∃ (K : Nat → Prop) (φ : Nat → Nat → Nat), (∀ x, K x → x < w.cells.length) ∧
    (∀ (i : Nat) h, H[i]? = some h → ∃ B ow m, w.builders[i]? = some (h.1, B) ∧
      own[i]? = some ow ∧ may[i]? = some m ∧
      Twin K ⟨B, w.cells, w.handles⟩ ow (loneOf h) m (φ i)) ∧
    ∀ (i j : Nat) h h' m m', i ≠ j → H[i]? = some h → H[j]? = some h' → may[i]? = some m →
      may[j]? = some m' → ∀ c c', Used (loneOf h) m c → Used (loneOf h') m' c' → φ i c ≠ φ j c'

theorem Family.init : Family (World.init : World α) [] [] [] :=
  ⟨⟨rfl, rfl, rfl⟩, fun _ => False, fun _ => id, by simp, by simp, by simp⟩

theorem getElem?_snoc {β : Type} {l : List β} {x y : β} {i : Nat} (h : (l ++ [x])[i]? = some y) :
    (i < l.length ∧ l[i]? = some y) ∨ (i = l.length ∧ x = y) := by
  by_cases hi : i < l.length
  · rw [List.getElem?_append_left hi] at h; exact .inl ⟨hi, h⟩
  · have := get_lt h
    simp only [List.length_append, List.length_cons, List.length_nil] at this
    obtain rfl : i = l.length := by omega
    simp only [List.getElem?_concat_length, Option.some.injEq] at h
    exact .inr ⟨rfl, h⟩

theorem Family.new {w : World α} {own may : List (List Nat)} {H : List (Flavor × List (Op α))}
    (h : Family w own H may) (fl : Flavor) :
    Family (w.step (.new fl)).1 (own ++ [[]]) (H ++ [(fl, [])]) (may ++ [[]]) := by
  obtain ⟨⟨l1, l2, l3⟩, K, φ, hK, hT, hD⟩ := h
  refine ⟨by simp [World.step, l1, l2, l3], K, φ, hK, ?_, ?_⟩
  · intro i x hx
    simp only [World.step]
    rcases getElem?_snoc hx with ⟨hi, hx⟩ | ⟨rfl, rfl⟩
    · obtain ⟨B, ow, m, b1, b2, b3, b4⟩ := hT i x hx
      refine ⟨B, ow, m, ?_, ?_, ?_, b4⟩
      · rw [List.getElem?_append_left (get_lt b1)]; exact b1
      · rw [List.getElem?_append_left (get_lt b2)]; exact b2
      · rw [List.getElem?_append_left (get_lt b3)]; exact b3
    · refine ⟨Builder.new, [], [], by rw [← l1]; simp, by rw [← l2]; simp, by rw [← l3]; simp, ?_⟩
      have hu : ∀ s : Sys α, ∀ c, ¬ Used s [] c := by rintro s c ⟨n, hn, _⟩; simp at hn
      exact ⟨rfl, rfl, by simp, by simp, fun c hc => absurd hc (hu _ c),
        fun c _ hc => absurd hc (hu _ c), fun c hc => by simp [loneOf, Sys.run, Sys.init, Builder.new] at hc,
        fun x hx => ⟨hK x hx, fun c hc => absurd hc (hu _ c)⟩⟩
  · intro i j x x' m m' ne hx hx' hm hm' c c' hc hc'
    rcases getElem?_snoc hm with ⟨hi, hm⟩ | ⟨_, rfl⟩
    · rcases getElem?_snoc hm' with ⟨hj, hm'⟩ | ⟨_, rfl⟩
      · rw [List.getElem?_append_left (by omega)] at hx hx'
        exact hD i j x x' m m' ne hx hx' hm hm' c c' hc hc'
      · obtain ⟨n, hn, _⟩ := hc'; simp at hn
    · obtain ⟨n, hn, _⟩ := hc; simp at hn

theorem loneOf_call (fl : Flavor) (ops : List (Op α)) (op : Op α) :
    loneOf (fl, ops ++ [op]) = ((loneOf (fl, ops)).step fl op).1 := by
  simp only [loneOf]
  rw [Sys.run_append]
  rfl

theorem Family.call {w : World α} {own may : List (List Nat)} {H : List (Flavor × List (Op α))}
    (h : Family w own H may) {i : Nat} {fl : Flavor} {ops : List (Op α)} {m : List Nat} {op : Op α}
    (hi : H[i]? = some (fl, ops)) (hm : may[i]? = some m)
    (hop : ∀ n d e, UsesAt op n d e → n ∈ m) :
    ∃ ow r, own[i]? = some ow ∧
      (w.step (.call i (op.globally ow w.handles.length))).2 = some r ∧
      (locally ow r).1 = ((loneOf (fl, ops)).step fl op).2 ∧
      Family (w.step (.call i (op.globally ow w.handles.length))).1
        (own.set i (locally ow r).2) (H.set i (fl, ops ++ [op]))
        (may.set i (mayAfter m ((loneOf (fl, ops)).step fl op).2)) := by
  obtain ⟨⟨l1, l2, l3⟩, K, φ, hK, hT, hD⟩ := h
  obtain ⟨B, ow, m', b1, b2, b3, b4⟩ := hT i _ hi
  rw [hm] at b3
  cases b3
  obtain ⟨φ', g1, g2, g3⟩ := b4.step (fl := fl) op hop
  simp only at b1 g1 g2 g3
  generalize hr : (⟨B, w.cells, w.handles⟩ : Sys α).step fl
    (op.globally ow w.handles.length) = r at g1 g2 g3
  have hw : w.step (.call i (op.globally ow w.handles.length)) =
      (⟨w.builders.set i (fl, r.1.b), r.1.cells, r.1.handles⟩, some r.2) := by
    simp only [World.step, b1, hr]
  refine ⟨ow, r.2, b2, by rw [hw], g2, ?_⟩
  rw [hw]
  have e1 := get_lt hi
  refine ⟨by simp [l1, l2, l3], K, fun j => if j = i then φ' else φ j, ?_, ?_, ?_⟩
  · intro x hx
    have := hK x hx
    have := g3.more
    simp only at this ⊢; omega
  · intro j x hx
    by_cases hj : j = i
    · subst hj
      rw [List.getElem?_set_self e1] at hx
      cases hx
      refine ⟨r.1.b, _, _, List.getElem?_set_self (by omega), List.getElem?_set_self (by omega),
        List.getElem?_set_self (by omega), ?_⟩
      show Twin K _ _ _ _ (if j = j then φ' else φ j)
      rw [if_pos rfl, loneOf_call]
      exact g1
    · have hj' : i ≠ j := fun e => hj e.symm
      rw [List.getElem?_set_ne hj'] at hx
      obtain ⟨D, oj, mj, d1, d2, d3, d4⟩ := hT j x hx
      refine ⟨D, oj, mj, ?_, ?_, ?_, ?_⟩
      · simp only; rw [List.getElem?_set_ne hj']; exact d1
      · rw [List.getElem?_set_ne hj']; exact d2
      · rw [List.getElem?_set_ne hj']; exact d3
      · show Twin K _ _ _ _ (if j = i then φ' else φ j)
        rw [if_neg hj]
        exact d4.other g3 rfl rfl
          (fun c c' hc hc' => hD j i x _ mj _ hj hx hi d3 hm c c' hc hc')
          (fun x y hx hy => (b4.apart x hx).2 y hy)
  · have key : ∀ (j : Nat) x mj, j ≠ i → H[j]? = some x → may[j]? = some mj → ∀ c c',
        Used (loneOf (fl, ops ++ [op])) (mayAfter m ((loneOf (fl, ops)).step fl op).2) c →
        Used (loneOf x) mj c' → φ' c ≠ φ j c' := by
      intro j x mj hj hx hmj c c' hc hc' e
      rw [loneOf_call] at hc
      obtain ⟨D, oj, mj', d1, d2, d3, d4⟩ := hT j x hx
      rw [hmj] at d3
      cases d3
      rcases g3.new c hc with ⟨u1, u2⟩ | u
      · rw [u2] at e
        exact hD i j _ x m mj (fun e => hj e.symm) hi hx hm hmj c c' u1 hc' e
      · have := (d4.same c' hc').2.1
        simp only at this u
        omega
    intro j k x y mj mk ne hx hy hmj hmk c c' hc hc'
    by_cases hj : j = i
    · subst hj
      have hk : k ≠ j := fun e => ne e.symm
      rw [List.getElem?_set_self (by omega)] at hx hmj
      rw [List.getElem?_set_ne ne] at hy hmk
      cases hx
      cases hmj
      simp only [if_true, if_neg hk]
      exact key k y mk hk hy hmk c c' hc hc'
    · have hj' : i ≠ j := fun e => hj e.symm
      rw [List.getElem?_set_ne hj'] at hx hmj
      by_cases hk : k = i
      · subst hk
        rw [List.getElem?_set_self (by omega)] at hy hmk
        cases hy
        cases hmk
        simp only [if_true, if_neg hj]
        intro e
        exact key j x mj hj hx hmj c' c hc' hc e.symm
      · have hk' : i ≠ k := fun e => hk e.symm
        rw [List.getElem?_set_ne hk'] at hy hmk
        simp only [if_neg hj, if_neg hk]
        exact hD j k x y mj mk ne hx hy hmj hmk c c' hc hc'

theorem Used.mono {s : Sys α} {a a' : List Nat} {c : Nat} (h : Used s a c)
    (ha : ∀ n ∈ a, n ∈ a') : Used s a' c := by
  obtain ⟨n, hn, e⟩ := h
  exact ⟨n, ha n hn, e⟩

theorem Family.clone {w : World α} {own may : List (List Nat)} {H : List (Flavor × List (Op α))}
    (h : Family w own H may) {i : Nat} {fl : Flavor} {ops : List (Op α)} {m : List Nat}
    (hi : H[i]? = some (fl, ops)) (hm : may[i]? = some m) (hs : Settled fl ops)
    {keep give : List Nat}
    (h1 : ∀ n, n ∈ keep ∨ n ∈ give → n ∈ m ∧
      MadeBetween (Sys.init.run fl ops).2 n (returned (Sys.init.run fl ops).2 - 1))
    (h2 : ∀ n ∈ keep, ∀ n' ∈ give, MadeBetween (Sys.init.run fl ops).2 n n' ∨
      MadeBetween (Sys.init.run fl ops).2 n' n) :
    Family (w.step (.clone i)).1 (own ++ own[i]?.toList) (H ++ H[i]?.toList)
      (may.set i keep ++ [give]) := by
  obtain ⟨⟨l1, l2, l3⟩, K, φ, hK, hT, hD⟩ := h
  obtain ⟨B, ow, m', b1, b2, b3, b4⟩ := hT i _ hi
  rw [hm] at b3
  cases b3
  have e1 := get_lt hi
  simp only at b1
  have hw : (w.step (.clone i)).1 = ⟨w.builders ++ [(fl, B)], w.cells, w.handles⟩ := by
    simp only [World.step, b1]; rfl
  rw [hw, b2, hi]
  simp only [Option.toList_some]
  have hst : Stale (loneOf (fl, ops)) := hs.stale
  obtain ⟨st, hA⟩ := (Alone.init (α := α) fl).run ops
  obtain ⟨k1, k2, _⟩ := run_last (fl := fl) (ops := ops) (Alone.init (α := α) fl) rfl
  have hlast : (loneOf (fl, ops)).b.checkpoint =
      (loneOf (fl, ops)).handles[returned (Sys.init.run fl ops).2 - 1]? := by
    simp only [loneOf]
    rw [k1, List.getLast?_eq_getElem?, k2]; simp [Sys.init]
  have hbet : ∀ n n', MadeBetween (Sys.init.run fl ops).2 n n' → ∀ c,
      (loneOf (fl, ops)).handles[n]? = some c → (loneOf (fl, ops)).handles[n']? = some c →
      False := by
    intro n n' hh c e e'
    obtain ⟨x, y, f, f', hne⟩ := made_between (Alone.init (α := α) fl) _ _ hh
    simp only [loneOf] at e e'
    rw [f] at e; rw [f'] at e'
    cases e; cases e'; exact hne rfl
  -- the cached checkpoint is no longer used
  let K' : Nat → Prop := fun x => K x ∨ ∃ c, (loneOf (fl, ops)).b.checkpoint = some c ∧ x = φ i c
  have hcell : ∀ c, (loneOf (fl, ops)).b.checkpoint = some c → ∃ cell cell' : Cell,
      (loneOf (fl, ops)).cells[c]? = some cell ∧ w.cells[φ i c]? = some cell' ∧
      cell.node < (loneOf (fl, ops)).b.tree.len ∧ cell'.node < (loneOf (fl, ops)).b.tree.len := by
    intro c hc
    rcases b4.cached c hc with hu | ⟨_, hh⟩
    · obtain ⟨u1, u2, u3⟩ := b4.same c hu
      have e := List.getElem?_eq_getElem u1
      exact ⟨_, _, e, by rw [u3]; exact e, hst c _ e, hst c _ e⟩
    · exact hh
  have hK' : ∀ x, K' x → x < w.cells.length := by
    rintro x (hx | ⟨c, hc, rfl⟩)
    · exact hK x hx
    · obtain ⟨_, _, _, e, _⟩ := hcell c hc
      exact get_lt e
  have part : ∀ k : List Nat, (∀ n ∈ k, n ∈ m ∧
      MadeBetween (Sys.init.run fl ops).2 n (returned (Sys.init.run fl ops).2 - 1)) →
      Twin K' ⟨B, w.cells, w.handles⟩ ow (loneOf (fl, ops)) k (φ i) := by
    intro k hk
    have hm : ∀ n ∈ k, n ∈ m := fun n hn => (hk n hn).1
    refine ⟨b4.bld, b4.len, fun n hn => b4.may n (hm n hn), fun n hn => b4.own n (hm n hn),
      fun c hc => b4.same c (hc.mono hm), fun c c' hc hc' => b4.inj c c' (hc.mono hm) (hc'.mono hm),
      fun c hc => .inr ⟨.inr ⟨c, hc, rfl⟩, hcell c hc⟩, fun x hx => ⟨hK' x hx, ?_⟩⟩
    intro c hc e
    rcases hx with hx | ⟨x', hx', rfl⟩
    · exact (b4.apart x hx).2 c (hc.mono hm) e
    · rcases b4.cached x' hx' with hu | ⟨hh, _⟩
      · have := b4.inj c x' (hc.mono hm) hu e
        subst this
        obtain ⟨n, hn, e'⟩ := hc
        exact hbet n _ (hk n hn).2 c e' (hlast.symm.trans hx')
      · exact (b4.apart _ hh).2 c (hc.mono hm) e
  have hkeep := part keep (fun n hn => h1 n (.inl hn))
  have hgive := part give (fun n hn => h1 n (.inr hn))
  have him : i < may.length := by omega
  refine ⟨by simp [l1, l2, l3], K', fun j => if j = H.length then φ i else φ j, hK', ?_, ?_⟩
  · intro j x hx
    rcases getElem?_snoc hx with ⟨hj, hx⟩ | ⟨rfl, rfl⟩
    · simp only [if_neg (show j ≠ H.length by omega)]
      by_cases hji : j = i
      · subst hji
        rw [hi] at hx
        cases hx
        refine ⟨B, ow, keep, ?_, ?_, ?_, hkeep⟩
        · simp only; rw [List.getElem?_append_left (by omega)]; exact b1
        · rw [List.getElem?_append_left (by omega)]; exact b2
        · rw [List.getElem?_append_left (by simp; omega)]
          exact List.getElem?_set_self him
      · obtain ⟨D, oj, mj, d1, d2, d3, d4⟩ := hT j x hx
        refine ⟨D, oj, mj, ?_, ?_, ?_, d4.bld, d4.len, d4.may, d4.own, d4.same, d4.inj, ?_, ?_⟩
        · rw [List.getElem?_append_left (by omega)]; exact d1
        · rw [List.getElem?_append_left (by omega)]; exact d2
        · rw [List.getElem?_append_left (by simp; omega),
            List.getElem?_set_ne (fun e => hji e.symm)]; exact d3
        · intro c hc
          rcases d4.cached c hc with h' | ⟨h', h''⟩
          · exact .inl h'
          · exact .inr ⟨.inl h', h''⟩
        · intro y hy
          refine ⟨hK' y hy, fun c hc e => ?_⟩
          rcases hy with hy | ⟨x', hx', rfl⟩
          · exact (d4.apart y hy).2 c hc e
          · rcases b4.cached x' hx' with hu | ⟨hh, _⟩
            · exact hD j i x _ mj m hji hx hi d3 hm c x' hc hu e
            · exact (d4.apart _ hh).2 c hc e
    · simp only [if_true]
      refine ⟨B, ow, give, ?_, ?_, ?_, hgive⟩
      · rw [← l1]; simp
      · rw [← l2]; simp
      · rw [← l3]
        rw [show may.length = (may.set i keep).length by simp]
        simp
  · -- two different builders
    have mono : ∀ (k : Nat) (hk : k < may.length) mk, (may.set i keep)[k]? = some mk →
        ∃ mk', may[k]? = some mk' ∧ ∀ n ∈ mk, n ∈ mk' := by
      intro k hk mk e
      by_cases hki : k = i
      · subst hki
        rw [List.getElem?_set_self him] at e
        cases e
        exact ⟨m, hm, fun n hn => (h1 n (.inl hn)).1⟩
      · rw [List.getElem?_set_ne (fun e => hki e.symm)] at e
        exact ⟨mk, e, fun n hn => hn⟩
    have new : ∀ (j : Nat) x mj, j < H.length → H[j]? = some x → (may.set i keep)[j]? = some mj →
        ∀ c c', Used (loneOf x) mj c → Used (loneOf (fl, ops)) give c' → φ j c ≠ φ i c' := by
      intro j x mj hj hx hmj c c' hc hc' e
      have hc'' := hc'.mono (fun n hn => (h1 n (.inr hn)).1)
      by_cases hji : j = i
      · subst hji
        rw [hi] at hx
        cases hx
        rw [List.getElem?_set_self him] at hmj
        cases hmj
        have := b4.inj c c' (hc.mono (fun n hn => (h1 n (.inl hn)).1)) hc'' e
        subst this
        obtain ⟨n, hn, en⟩ := hc
        obtain ⟨n', hn', en'⟩ := hc'
        rcases h2 n hn n' hn' with hb | hb
        · exact hbet _ _ hb c en en'
        · exact hbet _ _ hb c en' en
      · rw [List.getElem?_set_ne (fun e => hji e.symm)] at hmj
        exact hD j i x _ mj m hji hx hi hmj hm c c' hc hc'' e
    intro j k x y mj mk ne hx hy hmj hmk c c' hc hc' e
    have hls : (may.set i keep).length = H.length := by simp [l3]
    rcases getElem?_snoc hx with ⟨hj, hx⟩ | ⟨rfl, rfl⟩
    · rw [List.getElem?_append_left (by omega)] at hmj
      simp only [if_neg (show j ≠ H.length by omega)] at e
      rcases getElem?_snoc hy with ⟨hk, hy⟩ | ⟨rfl, rfl⟩
      · rw [List.getElem?_append_left (by omega)] at hmk
        simp only [if_neg (show k ≠ H.length by omega)] at e
        obtain ⟨mj', a1, a2⟩ := mono j (by omega) mj hmj
        obtain ⟨mk', a3, a4⟩ := mono k (by omega) mk hmk
        exact hD j k x y mj' mk' ne hx hy a1 a3 c c' (hc.mono a2) (hc'.mono a4) e
      · rw [← hls, List.getElem?_concat_length] at hmk
        cases hmk
        simp only [if_true] at e
        exact new j x mj hj hx hmj c c' hc hc' e
    · rw [← hls, List.getElem?_concat_length] at hmj
      cases hmj
      simp only [if_true] at e
      rcases getElem?_snoc hy with ⟨hk, hy⟩ | ⟨rfl, rfl⟩
      · rw [List.getElem?_append_left (by omega)] at hmk
        simp only [if_neg (show k ≠ H.length by omega)] at e
        exact new k y mk hk hy hmk c' c hc' hc e.symm
      · exact absurd rfl ne

theorem histories_snoc (prog : List (WOp α)) (op : WOp α) : histories (prog ++ [op]) =
    match op with
    | .new fl => histories prog ++ [(fl, [])]
    | .clone i => histories prog ++ (histories prog)[i]?.toList
    | .call i op => (histories prog).modify i fun h => (h.1, h.2 ++ [op]) := by
  simp only [histories, List.foldl_append, List.foldl_cons, List.foldl_nil]
  cases op <;> rfl

theorem play_snoc (prog : List (WOp α)) (op : WOp α) :
    play (prog ++ [op]) = (play prog).step op := by
  simp only [play, List.foldl_append, List.foldl_cons, List.foldl_nil]

/-- The call step of a program, by the result in the world. -/
theorem Playing.step_call (p : Playing α) {i : Nat} {op : Op α} {ow : List Nat}
    {r : Except Err Out} (h1 : p.own[i]? = some ow)
    (h2 : (p.world.step (.call i (op.globally ow p.world.handles.length))).2 = some r) :
    p.step (.call i op) =
      ⟨(p.world.step (.call i (op.globally ow p.world.handles.length))).1,
        p.own.set i (locally ow r).2, p.outs ++ [some (locally ow r).1]⟩ := by
  have hset : p.own.set i ow = p.own := by
    have hl := get_lt h1
    apply List.ext_getElem?
    intro k
    by_cases hk : k = i
    · subst hk; rw [List.getElem?_set_self hl, h1]
    · rw [List.getElem?_set_ne (fun e => hk e.symm)]
  simp only [Playing.step, h1, Option.getD_some, h2]
  rcases r with e | (n | n | _)
  · simp only [locally]; rw [hset]
  · simp only [locally]; rw [hset]
  · simp only [locally]
  · simp only [locally]; rw [hset]

/-- Of every fair program. -/
theorem Separate.family {prog : List (WOp α)} {may : List (List Nat)} (h : Separate prog may) :
    Family (play prog).world (play prog).own (histories prog) may ∧
    (play prog).outs.length = prog.length ∧
    ∀ (k i : Nat) (op : Op α), prog[k]? = some (.call i op) →
      ∃ h, (histories (prog.take k))[i]? = some h ∧
        (play prog).outs[k]? = some (some ((loneOf h).step h.1 op).2) := by
  induction h with
  | start => exact ⟨Family.init, rfl, by simp⟩
  | @new prog may fl _ ih =>
    obtain ⟨f1, f2, f3⟩ := ih
    rw [histories_snoc, play_snoc]
    refine ⟨f1.new fl, by simp [Playing.step, f2], ?_⟩
    intro k i op hk
    rcases getElem?_snoc hk with ⟨hl, hk⟩ | ⟨_, h⟩
    · obtain ⟨x, x1, x2⟩ := f3 k i op hk
      refine ⟨x, ?_, ?_⟩
      · rw [List.take_append_of_le_length (by omega)]; exact x1
      · simp only [Playing.step]; rw [List.getElem?_append_left (by omega)]; exact x2
    · cases h
  | @clone prog may fl ops m i keep give _ hi hm hs h1 h2 ih =>
    obtain ⟨f1, f2, f3⟩ := ih
    rw [histories_snoc, play_snoc]
    refine ⟨f1.clone hi hm hs h1 h2, by simp [Playing.step, f2], ?_⟩
    intro k i op hk
    rcases getElem?_snoc hk with ⟨hl, hk⟩ | ⟨_, h⟩
    · obtain ⟨x, x1, x2⟩ := f3 k i op hk
      refine ⟨x, ?_, ?_⟩
      · rw [List.take_append_of_le_length (by omega)]; exact x1
      · simp only [Playing.step]; rw [List.getElem?_append_left (by omega)]; exact x2
    · cases h
  | @call prog may fl ops m i op _ hi hm hop ih =>
    obtain ⟨f1, f2, f3⟩ := ih
    obtain ⟨ow, r, g1, g2, g3, g4⟩ := f1.call hi hm hop
    rw [histories_snoc, play_snoc, Playing.step_call _ g1 g2]
    have hmod : ((histories prog).modify i fun h => (h.1, h.2 ++ [op])) =
        (histories prog).set i (fl, ops ++ [op]) := by
      apply List.ext_getElem?
      intro k
      rw [List.getElem?_modify]
      by_cases hk : i = k
      · subst hk; rw [List.getElem?_set_self (get_lt hi), hi]; simp
      · rw [List.getElem?_set_ne hk]; simp [hk]
    refine ⟨by simp only [hmod]; exact g4, by simp [f2], ?_⟩
    intro k j op' hk
    simp only
    rcases getElem?_snoc hk with ⟨hl, hk⟩ | ⟨rfl, h⟩
    · obtain ⟨x, x1, x2⟩ := f3 k j op' hk
      refine ⟨x, ?_, ?_⟩
      · rw [List.take_append_of_le_length (by omega)]; exact x1
      · rw [List.getElem?_append_left (by omega)]; exact x2
    · cases h
      refine ⟨(fl, ops), ?_, ?_⟩
      · rw [List.take_left]; exact hi
      · rw [← f2, List.getElem?_concat_length, g3]

end Syntree
