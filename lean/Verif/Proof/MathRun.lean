import Verif.Proof.CalcPure
import Verif.Proof.MathLex

/-! The parser of the math example, as it runs, follows the grammar. -/

namespace Syntree.Math

open Forest
variable {ib pw : Nat}

open Calc (Tiles Tiles.append Tiles.le Tiles.stretch solid_append leaves_single take_append_width
  drop_append_width)

theorem bind_ok {β γ : Type} {x : P β} {f : β → P γ} {p p' : Parser} {a : β}
    (h : x p = .ok (a, p')) : (x >>= f) p = f a p' := by
  show P.bind x f p = _
  simp only [P.bind, h]

theorem call_ok {fl : Flavor} {op : Op Syn} {p : Parser} {s' : Sys Syn} {o : Out}
    (hf : p.fl = fl) (h : p.builder.step fl op = (s', .ok o)) :
    call op p = .ok (o, { p with builder := s' }) := by
  subst hf
  simp only [call, h]

/-- The pieces the iterator will hand out. -/
def Ahead (it : Peekable) (ps : List (Syn × Text)) : Prop :=
  ∃ pos rest qs, it.iter.At pos rest ∧ Lexed rest qs ∧
    ((it.peeked = none ∧ ps = qs) ∨ (∃ q, it.peeked = some (some (tokenOf q)) ∧ ps = q :: qs) ∨
      (it.peeked = some none ∧ ps = [] ∧ qs = []))

theorem Ahead.length {it : Peekable} {ps : List (Syn × Text)} (h : Ahead it ps) :
    ps.length ≤ it.iter.it.length + 1 := by
  obtain ⟨pos, rest, qs, ha, hl, h⟩ := h
  have h1 := hl.length_le
  rw [ha.1, charIndices_length]
  rcases h with ⟨_, rfl⟩ | ⟨q, _, rfl⟩ | ⟨_, rfl, _⟩ <;> simp <;> omega

theorem Ahead.peek {it : Peekable} {ps : List (Syn × Text)} (h : Ahead it ps) :
    it.peek.2 = ps.head?.map tokenOf ∧ Ahead it.peek.1 ps := by
  have h0 := h
  obtain ⟨pos, rest, qs, ha, hl, h⟩ := h
  unfold Peekable.peek
  rcases h with ⟨hp, rfl⟩ | ⟨q, hp, rfl⟩ | ⟨hp, rfl, rfl⟩
  · rw [hp]
    cases ps with
    | nil =>
      cases hl
      rw [ha.done]
      exact ⟨rfl, pos, [], [], ha, .nil, Or.inr (Or.inr ⟨rfl, rfl, rfl⟩)⟩
    | cons q qs =>
      obtain ⟨l', rest', e, _, a', hl', _⟩ := ha.next hl
      rw [e]
      exact ⟨rfl, _, rest', qs, a', hl', Or.inr (Or.inl ⟨q, rfl, rfl⟩)⟩
  · rw [hp]; exact ⟨rfl, h0⟩
  · rw [hp]; exact ⟨rfl, h0⟩

theorem Ahead.next {it : Peekable} {ps : List (Syn × Text)} (h : Ahead it ps) :
    it.next.2 = ps.head?.map tokenOf ∧ Ahead it.next.1 ps.tail := by
  obtain ⟨pos, rest, qs, ha, hl, h⟩ := h
  unfold Peekable.next
  rcases h with ⟨hp, rfl⟩ | ⟨q, hp, rfl⟩ | ⟨hp, rfl, rfl⟩
  · rw [hp]
    cases ps with
    | nil =>
      cases hl
      rw [ha.done]
      exact ⟨rfl, pos, [], [], ha, .nil, Or.inl ⟨rfl, rfl⟩⟩
    | cons q qs =>
      obtain ⟨l', rest', e, _, a', hl', _⟩ := ha.next hl
      rw [e]
      exact ⟨rfl, _, rest', qs, a', hl', Or.inl ⟨rfl, rfl⟩⟩
  · rw [hp]; exact ⟨rfl, pos, rest, qs, ha, hl, Or.inl ⟨rfl, rfl⟩⟩
  · rw [hp]; exact ⟨rfl, pos, rest, [], ha, hl, Or.inl ⟨rfl, rfl⟩⟩

/-- The running parser builds the level `L` inside of `st`, and has the pieces `ps` before it. -/
structure RP (ib pw : Nat) (p : Parser) (n : Nest Syn) (L : Lev Syn) (ps : List (Syn × Text))
    (st : List (Frm Syn)) (base : Nat) : Prop where
  sim : Cli ib pw p.builder n L st base
  ahead : Ahead p.iter ps
  flavor : p.fl = Flavor.sized ib pw
  room : L.pos + lens ps < 2 ^ ib
  texts : ∀ q ∈ ps, q.2 ≠ []

/-- There are enough pointers left. -/
def Space (pw k base : Nat) (L : Lev Syn) (ps : List (Syn × Text)) : Prop :=
  base + L.cur.size + 3 * ps.length + k < 2 ^ pw - 1

theorem Space.le {k k' base : Nat} {L : Lev Syn} {ps : List (Syn × Text)} (h : Space pw k base L ps)
    (hk : k' ≤ k) : Space pw k' base L ps := by unfold Space at h ⊢; omega

/-- From `L` to `L'`: the nodes `G` have been made of the pieces `u`. -/
structure Ext (L L' : Lev Syn) (u : List (Syn × Text)) (G : Forest (Syn × Span)) : Prop where
  cur : L'.cur = L.cur ++ G
  pos : L'.pos = L.pos + lens u
  tiles : Tiles G L.pos L'.pos
  solid : Calc.solid G = lay L.pos u

theorem Ext.refl (L : Lev Syn) : Ext L L [] .nil := ⟨by simp, by simp, rfl, rfl⟩

theorem Ext.trans {L L' L'' : Lev Syn} {u u' : List (Syn × Text)} {G G' : Forest (Syn × Span)}
    (h : Ext L L' u G) (h' : Ext L' L'' u' G') : Ext L L'' (u ++ u') (G ++ G') := by
  refine ⟨by rw [h'.cur, h.cur, Forest.append_assoc], by rw [h'.pos, h.pos, lens_append]; omega,
    h.tiles.append h'.tiles, ?_⟩
  rw [solid_append, h.solid, h'.solid, lay_append, h.pos]

theorem bytes_ne {cs : Text} (h : cs ≠ []) : Text.bytes cs ≠ 0 := by
  cases cs with
  | nil => exact absurd rfl h
  | cons c cs => have := utf8_pos c; simp only [bytes_cons]; omega

theorem Ext.tok (L : Lev Syn) {q : Syn × Text} (h : q.2 ≠ []) :
    Ext L (L.tok q.1 (Text.bytes q.2)) [q]
      (leaf (q.1, ⟨L.pos, L.pos + Text.bytes q.2⟩)) := by
  have := bytes_ne h
  refine ⟨rfl, by simp [Lev.tok], ⟨_, rfl, by simp, fun h => absurd rfl h, rfl⟩, ?_⟩
  simp [Calc.solid, leaves, lay, this]

theorem Ext.wrap {L L' : Lev Syn} {u : List (Syn × Text)} {G : Forest (Syn × Span)}
    (h : Ext L L' u G) (hn : G ≠ .nil) (d : Syn) :
    Ext L (L'.wrap L.cur.width d) u (single (d, ⟨L.pos, L'.pos⟩) G) := by
  have hi : G.isNil = false := by cases G with
    | nil => exact absurd rfl hn
    | cons => rfl
  unfold Lev.wrap
  rw [h.cur, drop_append_width, take_append_width]
  simp only [hi, Bool.false_eq_true, if_false]
  refine ⟨by simp [h.tiles.stretch hn], h.pos, ⟨_, rfl, h.tiles.le, fun _ => h.tiles, rfl⟩, ?_⟩
  rw [← h.solid]
  unfold Calc.solid
  rw [leaves_single hn]

/-- The kinds of the nodes. -/
abbrev shape (G : Forest (Syn × Span)) : Forest Syn := G.map (·.1)

theorem map_append {β γ : Type} (f : β → γ) (F G : Forest β) :
    (F ++ G).map f = F.map f ++ G.map f := by
  induction F with
  | nil => rfl
  | cons x k r _ ih => simp only [cons_append, Forest.map, ih]

theorem blankNodes_succ (n : Nat) : blankNodes (n + 1) = leaf .whitespace ++ blankNodes n := rfl

/-- Checkpoints up to position `w` are still good. -/
def Keeps (n n' : Nest Syn) (w : Nat) : Prop :=
  ∀ (j : Nat) (m : Mark), n.marks[j]? = some m → m.pos ≤ w → n'.marks[j]? = some m

theorem Keeps.of_eq {n n' : Nest Syn} (h : n'.marks = n.marks) (w : Nat) : Keeps n n' w := by
  intro j m hm _; rw [h]; exact hm

theorem Keeps.trans {n n1 n2 : Nest Syn} {w w1 : Nat} (h : Keeps n n1 w) (h1 : Keeps n1 n2 w1)
    (hw : w ≤ w1) : Keeps n n2 w := fun j m hm hp => h1 j m (h j m hm hp) (by omega)

/-! ## The small functions -/

theorem look_ok {p : Parser} {n : Nest Syn} {L : Lev Syn} {ps : List (Syn × Text)}
    {st : List (Frm Syn)} {base : Nat} (h : RP ib pw p n L ps st base) :
    ∃ p', look p = .ok (ps.head?.map tokenOf, p') ∧ RP ib pw p' n L ps st base := by
  obtain ⟨e, a⟩ := h.ahead.peek
  exact ⟨⟨p.builder, p.iter.peek.1, p.fl⟩, by unfold look; rw [e], ⟨h.sim, a, h.flavor, h.room, h.texts⟩⟩

theorem bump_cons {p : Parser} {n : Nest Syn} {L : Lev Syn} {q : Syn × Text}
    {ps : List (Syn × Text)} {st : List (Frm Syn)} {base : Nat}
    (h : RP ib pw p n L (q :: ps) st base) (hs : base + L.cur.size < 2 ^ pw - 1) :
    ∃ p' n', bump p = .ok ((), p') ∧ RP ib pw p' n' (L.tok q.1 (Text.bytes q.2)) ps st base ∧
      n'.marks = n.marks := by
  obtain ⟨e, a⟩ := h.ahead.next
  have hroom := h.room
  simp only [lens_cons] at hroom
  obtain ⟨s', n', e', c, m⟩ := h.sim.token q.1 (Text.bytes q.2) (by omega) hs
  refine ⟨⟨s', p.iter.next.1, p.fl⟩, n', ?_, ⟨c, a, h.flavor, ?_, fun x hx => h.texts x (by simp [hx])⟩, m⟩
  · unfold bump
    rw [bind_ok (p' := ⟨p.builder, p.iter.next.1, p.fl⟩) (a := some (tokenOf q))]
    · simp only [tokenOf]
      rw [bind_ok (call_ok (p := ⟨p.builder, p.iter.next.1, p.fl⟩) h.flavor e')]; rfl
    · unfold advance; rw [e]; rfl
  · simp only [Lev.tok]; omega

theorem bump_nil {p : Parser} {n : Nest Syn} {L : Lev Syn} {st : List (Frm Syn)} {base : Nat}
    (h : RP ib pw p n L [] st base) : ∃ p', bump p = .ok ((), p') ∧ RP ib pw p' n L [] st base := by
  obtain ⟨e, a⟩ := h.ahead.next
  refine ⟨⟨p.builder, p.iter.next.1, p.fl⟩, ?_, ⟨h.sim, a, h.flavor, h.room, h.texts⟩⟩
  unfold bump
  rw [bind_ok (p' := ⟨p.builder, p.iter.next.1, p.fl⟩) (a := none)]
  · rfl
  · unfold advance; rw [e]; rfl

/-- The kinds of pieces. -/
abbrev kinds (ps : List (Syn × Text)) : List Syn := ps.map (·.1)

theorem skipLoop_ok : ∀ (fuel : Nat) {p : Parser} {n : Nest Syn} {L : Lev Syn}
    {ps : List (Syn × Text)} {st : List (Frm Syn)} {base : Nat}, RP ib pw p n L ps st base →
    Space pw 2 base L ps → ps.length < fuel →
    ∃ p' n' L' u ps' G, skipLoop fuel p = .ok ((), p') ∧ RP ib pw p' n' L' ps' st base ∧ ps = u ++ ps' ∧
      Ext L L' u G ∧ kinds u = blanks u.length ∧ shape G = blankNodes u.length ∧
      NoHead [.whitespace] (kinds ps') ∧ n'.marks = n.marks ∧ G.size = u.length := by
  intro fuel
  induction fuel with
  | zero => intro p n L ps st base _ _ h; omega
  | succ fuel ih =>
    intro p n L ps st base h hs hf
    obtain ⟨p1, e1, r1⟩ := look_ok h
    unfold skipLoop
    rw [bind_ok e1]
    cases ps with
    | nil =>
      exact ⟨p1, n, L, [], [], .nil, rfl, r1, rfl, Ext.refl L, rfl, rfl, by simp [NoHead], rfl, rfl⟩
    | cons q ps =>
      obtain ⟨k, t⟩ := q
      by_cases hw : k = .whitespace
      · subst hw
        simp only [List.head?_cons, Option.map_some, tokenOf]
        have hsz : base + L.cur.size < 2 ^ pw - 1 := by unfold Space at hs; omega
        obtain ⟨p2, n2, e2, r2, m2⟩ := bump_cons r1 hsz
        have x2 := Ext.tok L (q := (.whitespace, t)) (h.texts _ (by simp))
        obtain ⟨p3, n3, L3, u, ps', G, e3, r3, hps, x3, hk, hG, hn, m3, hsz3⟩ := ih r2
          (by unfold Space at hs ⊢; simp [Lev.tok, size_append, Forest.size] at hs ⊢; omega)
          (by simpa using hf)
        refine ⟨p3, n3, L3, (.whitespace, t) :: u, ps', _, ?_, r3, by rw [hps]; rfl, x2.trans x3,
          ?_, ?_, hn, m3.trans m2, ?_⟩
        · rw [bind_ok e2]; exact e3
        · simp only [List.map_cons, List.length_cons, blanks, List.replicate_succ]
          rw [show u.map (·.1) = blanks u.length from hk]
        · rw [shape, map_append, show G.map (·.1) = _ from hG]; rfl
        · simp [size_append, Forest.size, hsz3]; omega
      · refine ⟨p1, n, L, [], (k, t) :: ps, .nil, ?_, r1, rfl, Ext.refl L, rfl, rfl, ?_, rfl, rfl⟩
        · simp only [List.head?_cons, Option.map_some, tokenOf]
          cases k <;> first | rfl | exact absurd rfl hw
        · intro x hx
          simp only [List.map_cons, List.head?_cons, Option.some.injEq] at hx
          subst hx; simpa using hw

theorem peek_ok {p : Parser} {n : Nest Syn} {L : Lev Syn}
    {ps : List (Syn × Text)} {st : List (Frm Syn)} {base : Nat} (h : RP ib pw p n L ps st base)
    (hs : Space pw 2 base L ps) :
    ∃ p' n' L' u ps' G, peek p = .ok ((kinds ps').head?, p') ∧ RP ib pw p' n' L' ps' st base ∧
      ps = u ++ ps' ∧ Ext L L' u G ∧ kinds u = blanks u.length ∧ shape G = blankNodes u.length ∧
      NoHead [.whitespace] (kinds ps') ∧ n'.marks = n.marks ∧ G.size = u.length := by
  obtain ⟨p1, n1, L1, u, ps', G, e1, r1, hps, x1, hk, hG, hn, m1, hsz⟩ := skipLoop_ok (fuelFor p) h hs
    (by have := h.ahead.length; unfold fuelFor; omega)
  obtain ⟨p2, e2, r2⟩ := look_ok r1
  refine ⟨p2, n1, L1, u, ps', G, ?_, r2, hps, x1, hk, hG, hn, m1, hsz⟩
  unfold peek
  rw [bind_ok (x := fun p => skipLoop (fuelFor p) p) e1, bind_ok e2]
  cases ps' <;> rfl

/-- What a parsing function does, in terms of a rule of the grammar. -/
def Does (ib pw : Nat) (f : P Unit) (R : List Syn → Forest Syn → List Syn → Prop) : Prop :=
  ∀ (p : Parser) (n : Nest Syn) (L : Lev Syn) (ps : List (Syn × Text)) (st : List (Frm Syn))
    (base : Nat), RP ib pw p n L ps st base → Space pw 4 base L ps →
    ∃ p' n' L' u ps' G, f p = .ok ((), p') ∧ RP ib pw p' n' L' ps' st base ∧ ps = u ++ ps' ∧
      Ext L L' u G ∧ R (kinds ps) (shape G) (kinds ps') ∧ Keeps n n' L.cur.width ∧ G ≠ .nil ∧
      G.size ≤ 3 * u.length + 1

theorem kinds_append (a b : List (Syn × Text)) : kinds (a ++ b) = kinds a ++ kinds b := by simp

theorem append_ne_nil {β : Type} (F : Forest β) {G : Forest β} (h : G ≠ .nil) : F ++ G ≠ .nil := by
  cases F with
  | nil => simpa using h
  | cons => simp

theorem val_ok : Does ib pw parseVal Val := by
  intro p n L ps st base h hs
  obtain ⟨p1, n1, L1, u, ps1, G, e1, r1, rfl, x1, hk, hG, hn, m1, hsz⟩ := peek_ok h (hs.le (by omega))
  have hL1 : L1.cur.size = L.cur.size + u.length := by rw [x1.cur, size_append, hsz]
  have hs1 : base + L1.cur.size + 4 < 2 ^ pw - 1 := by
    unfold Space at hs; simp only [List.length_append] at hs; omega
  have hwid : L.cur.width ≤ L1.cur.width := by rw [x1.cur]; simp
  -- the error node
  have openErr := r1.sim.open .error (by omega)
  cases ps1 with
  | nil =>
    obtain ⟨s2, n2, e2, c2, m2⟩ := openErr
    have r2 : RP ib pw ⟨s2, p1.iter, p1.fl⟩ n2 ⟨.nil, L1.pos⟩ [] (⟨n1.count, .error, L1.pos, n1.cur⟩ :: st)
        (base + L1.cur.size + 1) := ⟨c2, r1.ahead, r1.flavor, r1.room, r1.texts⟩
    obtain ⟨p3, e3, r3⟩ := bump_nil r2
    obtain ⟨s4, n4, e4, c4, m4⟩ := r3.sim.close (by rw [r1.sim.size]; omega)
    simp only [r1.sim.cur, r1.sim.size] at c4
    rw [show base + L1.cur.size + 1 - L1.cur.size - 1 = base by omega] at c4
    have x4 : Ext L1 ⟨L1.cur ++ single (.error, ⟨L1.pos, L1.pos⟩) .nil, L1.pos⟩ []
        (leaf (.error, ⟨L1.pos, L1.pos⟩)) := by
      refine ⟨rfl, by simp, ⟨_, rfl, by simp, fun h => absurd rfl h, rfl⟩, ?_⟩
      simp [Calc.solid, leaves, lay]
    refine ⟨⟨s4, p3.iter, p3.fl⟩, n4, _, _, [], _, ?_, ⟨c4, r3.ahead, r3.flavor, r1.room, r3.texts⟩,
      by simp, x1.trans x4, ?_, ?_, append_ne_nil _ (by simp), ?_⟩
    · unfold parseVal
      rw [bind_ok e1]
      simp only [List.map_nil, List.head?_nil]
      rw [bind_ok (call_ok r1.flavor e2), bind_ok e3, bind_ok (call_ok r3.flavor e4)]; rfl
    · rw [List.append_nil, hk, shape, map_append, show G.map (·.1) = _ from hG]
      exact .missing _
    · exact Keeps.of_eq (by rw [m4, m2, m1]) _
    · simp [size_append, Forest.size, hsz]; omega
  | cons q ps2 =>
    obtain ⟨k, t⟩ := q
    have ht : t ≠ [] := r1.texts (k, t) (by simp)
    by_cases hnum : k = .number
    · subst hnum
      obtain ⟨p2, n2, e2, r2, m2⟩ := bump_cons r1 (by omega)
      have x2 := Ext.tok L1 (q := (.number, t)) ht
      refine ⟨p2, n2, _, u ++ [(.number, t)], ps2, _, ?_, r2, by simp, x1.trans x2, ?_,
        Keeps.of_eq (by rw [m2, m1]) _, append_ne_nil _ (by simp), ?_⟩
      · unfold parseVal
        rw [bind_ok e1]; exact e2
      · rw [kinds_append, hk, shape, map_append, show G.map (·.1) = _ from hG]
        exact .number _ _
      · simp [size_append, Forest.size, hsz]; omega
    · obtain ⟨s2, n2, e2, c2, m2⟩ := openErr
      have r2 : RP ib pw ⟨s2, p1.iter, p1.fl⟩ n2 ⟨.nil, L1.pos⟩ ((k, t) :: ps2)
          (⟨n1.count, .error, L1.pos, n1.cur⟩ :: st) (base + L1.cur.size + 1) :=
        ⟨c2, r1.ahead, r1.flavor, r1.room, r1.texts⟩
      obtain ⟨p3, n3, e3, r3, m3⟩ := bump_cons r2 (by simp [Forest.size]; omega)
      obtain ⟨s4, n4, e4, c4, m4⟩ := r3.sim.close (by rw [r1.sim.size]; omega)
      simp only [r1.sim.cur, r1.sim.size] at c4
      rw [show base + L1.cur.size + 1 - L1.cur.size - 1 = base by omega] at c4
      have hb := bytes_ne ht
      have x4 : Ext L1 ⟨L1.cur ++ single (.error, ⟨L1.pos, L1.pos + Text.bytes t⟩)
          (leaf (k, ⟨L1.pos, L1.pos + Text.bytes t⟩)), L1.pos + Text.bytes t⟩ [(k, t)]
          (single (.error, ⟨L1.pos, L1.pos + Text.bytes t⟩)
            (leaf (k, ⟨L1.pos, L1.pos + Text.bytes t⟩))) := by
        refine ⟨rfl, by simp, ⟨_, rfl, by simp, fun _ => ⟨_, rfl, by simp, fun h => absurd rfl h, rfl⟩,
          rfl⟩, ?_⟩
        simp [Calc.solid, leaves, lay, hb]
      refine ⟨⟨s4, p3.iter, p3.fl⟩, n4, _, u ++ [(k, t)], ps2, _, ?_, ⟨c4, r3.ahead, r3.flavor, ?_, r3.texts⟩, by simp,
        x1.trans x4, ?_, Keeps.of_eq (by rw [m4, m3, m2, m1]) _, append_ne_nil _ (by simp), ?_⟩
      · unfold parseVal
        rw [bind_ok e1]
        simp only [List.map_cons, List.head?_cons]
        have go : (do
            let _ ← call (.open .error)
            bump
            let _ ← call .close
            pure () : P Unit) p1 = .ok ((), ⟨s4, p3.iter, p3.fl⟩) := by
          rw [bind_ok (call_ok r1.flavor e2), bind_ok e3, bind_ok (call_ok r3.flavor e4)]; rfl
        cases k <;> first | exact go | exact absurd rfl hnum
      · exact r3.room
      · rw [kinds_append, hk, shape, map_append, show G.map (·.1) = _ from hG]
        exact .error _ _ hnum (by simpa using hn k rfl)
      · simp [size_append, Forest.size, hsz]; omega

theorem loop_ok {ops : List Syn} {next : P Unit} {R : List Syn → Forest Syn → List Syn → Prop}
    (hnext : Does ib pw next R) (c : Nat) :
    ∀ (fuel : Nat) {p : Parser} {n : Nest Syn} {L L0 : Lev Syn} {i : List Syn}
      {u ps : List (Syn × Text)} {G : Forest (Syn × Span)} {st : List (Frm Syn)} {base : Nat},
      RP ib pw p n L ps st base → Space pw 4 base L0 (u ++ ps) → Ext L0 L u G →
      Chain ops R i (shape G) (kinds ps) → G ≠ .nil → G.size ≤ 3 * u.length + 1 →
      n.marks[c]? = some ⟨st.head?.map (·.id), L0.cur.width, true⟩ → ps.length < fuel →
      ∃ p' n' L' u' ps' G', operationLoop ops next c fuel p = .ok ((), p') ∧
        RP ib pw p' n' L' ps' st base ∧ u ++ ps = u' ++ ps' ∧ Ext L0 L' u' G' ∧
        Whole ops R i (shape G') (kinds ps') ∧ Keeps n n' L0.cur.width ∧ G' ≠ .nil ∧
        G'.size ≤ 3 * u'.length + 1 := by
  intro fuel
  induction fuel with
  | zero => intro p n L L0 i u ps G st base _ _ _ _ _ _ _ h; omega
  | succ fuel ih =>
    intro p n L L0 i u ps G st base h hs0 x hch hG hsz hm hf
    have hLsz : L.cur.size = L0.cur.size + G.size := by rw [x.cur, size_append]
    have hs : Space pw 3 base L ps := by
      unfold Space at hs0 ⊢; simp only [List.length_append] at hs0; omega
    obtain ⟨p1, n1, L1, b, ps1, B, e1, r1, rfl, x1, hk, hB, hn, m1, hbsz⟩ :=
      peek_ok h (hs.le (by omega))
    have hL1sz : L1.cur.size = L.cur.size + B.size := by rw [x1.cur, size_append]
    have hw1 : L0.cur.width ≤ L1.cur.width := by rw [x1.cur, x.cur]; simp
    unfold operationLoop
    rw [bind_ok e1]
    -- the end of the loop
    have fin : NoHead (.whitespace :: ops) (kinds ps1) →
        ∃ p' n' L' u' ps' G', (pure () : P Unit) p1 = .ok ((), p') ∧
        RP ib pw p' n' L' ps' st base ∧ u ++ (b ++ ps1) = u' ++ ps' ∧ Ext L0 L' u' G' ∧
        Whole ops R i (shape G') (kinds ps') ∧ Keeps n n' L0.cur.width ∧ G' ≠ .nil ∧
        G'.size ≤ 3 * u'.length + 1 := by
      intro hno
      refine ⟨p1, n1, L1, u ++ b, ps1, G ++ B, rfl, r1, by simp, x.trans x1, ?_,
        Keeps.of_eq m1 _, ?_, ?_⟩
      · rw [shape, map_append, show B.map (·.1) = _ from hB]
        refine .mk ?_ hno
        rw [kinds_append, hk] at hch
        exact hch
      · cases G with
        | nil => exact absurd rfl hG
        | cons => simp
      · simp [size_append, hbsz]; omega
    cases ps1 with
    | nil => exact fin (by simp [NoHead])
    | cons q ps2 =>
      obtain ⟨k, t⟩ := q
      simp only [List.map_cons, List.head?_cons]
      have hkw : k ≠ .whitespace := by simpa using hn k rfl
      by_cases hop : k ∈ ops
      · rw [if_pos hop]
        unfold Space at hs hs0
        simp only [List.length_append, List.length_cons] at hs hs0 hf
        obtain ⟨p2, n2, e2, r2, m2⟩ := bump_cons r1 (by omega)
        have x2 := Ext.tok L1 (q := (k, t)) (r1.texts _ (by simp))
        obtain ⟨p3, n3, L3, u3, ps3, G3, e3, r3, rfl, x3, hR, k3, hG3, hsz3⟩ := hnext _ _ _ _ _ _ r2 (by
          unfold Space
          simp only [Lev.tok, size_append, Forest.size]
          omega)
        have hw2 : L1.cur.width ≤ (L1.tok k (Text.bytes t)).cur.width := by simp [Lev.tok]
        have kk : Keeps n n3 L0.cur.width :=
          (Keeps.of_eq (m2.trans m1) L0.cur.width).trans k3 (Nat.le_trans hw1 hw2)
        have hL3 : L3.cur.size = L1.cur.size + 1 + G3.size := by
          rw [x3.cur, size_append]; simp [Lev.tok, size_append, Forest.size]
        simp only [List.length_append] at hs hs0 hf
        obtain ⟨s4, n4, e4, c4, l4, k4⟩ := r3.sim.closeAt c L0.cur.width .operation (by omega)
          (kk c _ hm (Nat.le_refl _))
        have x4 := ((x.trans x1).trans (x2.trans x3)).wrap
          (append_ne_nil _ (append_ne_nil _ hG3)) .operation
        have hpos : (L3.wrap L0.cur.width .operation).pos = L3.pos := Lev.wrap_pos ..
        obtain ⟨p5, n5, L5, u5, ps5, G5, e5, r5, hu, x5, hW, k5, hG5, hsz5⟩ := ih (i := i)
          (p := ⟨s4, p3.iter, p3.fl⟩) (n := n4) (ps := ps3) (st := st) (base := base)
          ⟨c4, r3.ahead, r3.flavor, by rw [hpos]; exact r3.room, r3.texts⟩
          (by unfold Space; simp only [List.length_append, List.length_cons, List.length_nil]; omega)
          x4 (by
            have hc := Chain.op (ops := ops) (Operand := R) (i := i) (F := shape G) (n := b.length) (o := k)
              (m := kinds (u3 ++ ps3)) (by
                rw [kinds_append, hk] at hch
                simpa using hch) hop hR
            have e : shape (single (Syn.operation, (⟨L0.pos, L3.pos⟩ : Span))
                (G ++ B ++ (leaf (k, (⟨L1.pos, L1.pos + Text.bytes t⟩ : Span)) ++ G3))) =
                single .operation (shape G ++ blankNodes b.length ++ leaf k ++ shape G3) := by
              simp only [shape, Forest.map, map_append, show B.map (·.1) = _ from hB,
                Forest.append_assoc]
            rw [e]; exact hc)
          (by simp)
          (by
            simp only [Forest.size, size_append, List.length_append, List.length_cons,
              List.length_nil]
            omega)
          (k4 c _ (kk c _ hm (Nat.le_refl _)) (Nat.le_refl _))
          (by omega)
        refine ⟨p5, n5, L5, u5, ps5, G5, ?_, r5, ?_, x5, hW, ?_, hG5, hsz5⟩
        · rw [bind_ok e2, bind_ok e3, bind_ok (call_ok r3.flavor e4)]; exact e5
        · rw [← hu]; simp
        · exact (kk.trans (w1 := L0.cur.width) (fun j m hj hp => k4 j m hj hp) (Nat.le_refl _)).trans
            k5 (Nat.le_refl _)
      · rw [if_neg hop]
        refine fin ?_
        intro y hy
        simp only [List.map_cons, List.head?_cons, Option.some.injEq] at hy
        subst hy
        simp [hkw, hop]

theorem handle_ok {ops : List Syn} {next : P Unit} {R : List Syn → Forest Syn → List Syn → Prop}
    (hnext : Does ib pw next R) : Does ib pw (handleOperation ops next) (Whole ops R) := by
  intro p n L ps st base h hs
  obtain ⟨s1, n1, e1, c1, m1⟩ := h.sim.checkpoint (by unfold Space at hs; omega)
  have e1' : checkpoint p = .ok (n.marks.length, ⟨s1, p.iter, p.fl⟩) := by
    unfold checkpoint; rw [call_ok h.flavor e1]
  obtain ⟨p2, n2, L2, u, ps2, G, e2, r2, rfl, x2, hR, k2, hG, hsz⟩ := hnext ⟨s1, p.iter, p.fl⟩ n1 L ps st base
    ⟨c1, h.ahead, h.flavor, h.room, h.texts⟩ hs
  have hm : n1.marks[n.marks.length]? = some ⟨st.head?.map (·.id), L.cur.width, true⟩ := by
    rw [m1]; simp
  obtain ⟨p3, n3, L3, u3, ps3, G3, e3, r3, hu, x3, hW, k3, hG3, hsz3⟩ := loop_ok hnext
    n.marks.length (fuelFor p2) r2 hs x2 (.one hR) hG hsz
    (k2 _ _ hm (Nat.le_refl _)) (by have := r2.ahead.length; unfold fuelFor; omega)
  refine ⟨p3, n3, L3, u3, ps3, G3, ?_, r3, hu, x3, hW, ?_, hG3, hsz3⟩
  · unfold handleOperation
    rw [bind_ok e1', bind_ok e2]; exact e3
  · have k1 : Keeps n n1 L.cur.width := by
      intro j m hj _
      rw [m1, List.getElem?_append_left (by
        have := List.getElem?_eq_some_iff.1 hj
        exact this.1)]
      exact hj
    exact (k1.trans k2 (Nat.le_refl _)).trans k3 (Nat.le_refl _)

theorem add_ok : Does ib pw parseAdd Sum := handle_ok (handle_ok val_ok)

end Syntree.Math
