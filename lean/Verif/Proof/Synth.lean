import Verif.Proof.MathLex
import Verif.Proof.Client
import Verif.Proof.CalcEval
import Verif.Spec.Synth

/-! The synthetic strings example. -/

namespace Syntree.Synth

open Calc (Stops exists_run)
open Math (charIndices eat charIndices_append charIndices_head eat_run run_unique)
open Forest

/-! ## The pieces of a text -/

/-- The kind of a piece is known from its first character. -/
def kindOf (c : Char) : Kind :=
  if isWhitespace c then .whitespace else if c = '$' then .ref
  else if isAlpha c then .literal else .error

/-- What continues a piece. -/
def Kind.goes : Kind → Char → Bool
  | .whitespace => isWhitespace
  | .ref => isLower
  | .literal => isAlpha
  | .error => fun c => !isWhitespace c

theorem alpha_facts {c : Char} (h : isAlpha c = true) : isWhitespace c = false ∧ c ≠ '$' := by
  constructor
  · cases hw : isWhitespace c with
    | false => rfl
    | true =>
      simp only [isAlpha, isLower, isWhitespace, Bool.and_eq_true, Bool.or_eq_true,
        decide_eq_true_eq, beq_iff_eq] at h hw
      omega
  · rintro rfl; exact absurd h (by decide)

theorem Lexed.inv {c : Char} {cs : Text} {qs : List (Kind × Text)} (h : Lexed (c :: cs) qs) :
    ∃ run rest ps, qs = (kindOf c, c :: run) :: ps ∧ cs = run ++ rest ∧
      (∀ x ∈ run, (kindOf c).goes x) ∧ Stops (kindOf c).goes rest ∧ Lexed rest ps := by
  generalize hs : c :: cs = s at h
  cases h with
  | nil => simp at hs
  | @whitespace c' run rest ps hw hst hr =>
    simp only [List.cons_append, List.cons.injEq] at hs
    obtain ⟨rfl, rfl⟩ := hs
    have hk : kindOf c = .whitespace := by simp [kindOf, hw c (by simp)]
    rw [hk]
    exact ⟨run, rest, ps, rfl, rfl, fun x hx => hw x (by simp [hx]), hst, hr⟩
  | @ref name rest ps hw hst hr =>
    simp only [List.cons_append, List.cons.injEq] at hs
    obtain ⟨rfl, rfl⟩ := hs
    have hk : kindOf '$' = .ref := by decide
    rw [hk]
    exact ⟨name, rest, ps, rfl, rfl, hw, hst, hr⟩
  | @literal c' run rest ps hw hst hr =>
    simp only [List.cons_append, List.cons.injEq] at hs
    obtain ⟨rfl, rfl⟩ := hs
    have ha := hw c (by simp)
    have hk : kindOf c = .literal := by
      simp [kindOf, alpha_facts ha, ha]
    rw [hk]
    exact ⟨run, rest, ps, rfl, rfl, fun x hx => hw x (by simp [hx]), hst, hr⟩
  | @error c' run rest ps h1 h2 h3 hw hst hr =>
    simp only [List.cons_append, List.cons.injEq] at hs
    obtain ⟨rfl, rfl⟩ := hs
    have hk : kindOf c = .error := by simp [kindOf, h1, h2, h3]
    rw [hk]
    exact ⟨run, rest, ps, rfl, rfl, fun x hx => by simp [Kind.goes, hw x hx], hst, hr⟩

theorem Lexed.make {c : Char} {run rest : Text} {ps : List (Kind × Text)}
    (hw : ∀ x ∈ run, (kindOf c).goes x) (hst : Stops (kindOf c).goes rest) (hr : Lexed rest ps) :
    Lexed (c :: run ++ rest) ((kindOf c, c :: run) :: ps) := by
  revert hw hst
  unfold kindOf
  by_cases h1 : isWhitespace c = true
  · rw [if_pos h1]
    exact fun hw hst => .whitespace (by
      intro x hx
      simp only [List.mem_cons] at hx
      rcases hx with rfl | hx
      · exact h1
      · exact hw x hx) hst hr
  · rw [if_neg h1]
    by_cases h2 : c = '$'
    · rw [if_pos h2]; subst h2
      exact fun hw hst => .ref hw hst hr
    · rw [if_neg h2]
      by_cases h3 : isAlpha c = true
      · rw [if_pos h3]
        exact fun hw hst => .literal (by
          intro x hx
          simp only [List.mem_cons] at hx
          rcases hx with rfl | hx
          · exact h3
          · exact hw x hx) hst hr
      · rw [if_neg h3]
        exact fun hw hst => .error (by simpa using h1) h2 (by simpa using h3)
          (fun x hx => by simpa [Kind.goes] using hw x hx) hst hr

theorem Lexed.exists_aux : ∀ (n : Nat) (cs : Text), cs.length ≤ n → ∃ ps, Lexed cs ps := by
  intro n
  induction n with
  | zero => intro cs h; cases cs with
    | nil => exact ⟨[], .nil⟩
    | cons => simp at h
  | succ n ih =>
    intro cs h
    cases cs with
    | nil => exact ⟨[], .nil⟩
    | cons c cs =>
      simp only [List.length_cons] at h
      obtain ⟨run, rest, e, h1, h2⟩ := exists_run (kindOf c).goes cs
      obtain ⟨ps, hp⟩ := ih rest (by have := congrArg List.length e; simp at this; omega)
      exact ⟨_, by rw [e]; exact Lexed.make h1 h2 hp⟩

theorem Lexed.total (cs : Text) : ∃ ps, Lexed cs ps := Lexed.exists_aux cs.length cs (Nat.le_refl _)

theorem Lexed.unique {cs : Text} {ps qs : List (Kind × Text)} (h : Lexed cs ps)
    (h' : Lexed cs qs) : ps = qs := by
  induction ps generalizing cs qs with
  | nil =>
    cases cs with
    | nil => cases h'; rfl
    | cons c cs => obtain ⟨_, _, _, e, _⟩ := h.inv; simp at e
  | cons p ps ih =>
    cases cs with
    | nil => cases h
    | cons c cs =>
      obtain ⟨r1, s1, p1, e1, c1, w1, t1, l1⟩ := h.inv
      obtain ⟨r2, s2, p2, e2, c2, w2, t2, l2⟩ := h'.inv
      obtain ⟨rfl, rfl⟩ := run_unique (c1.symm.trans c2) w1 t1 w2 t2
      simp only [List.cons.injEq] at e1
      obtain ⟨rfl, rfl⟩ := e1
      rw [e2, ih l1 l2]

theorem Lexed.texts {cs : Text} {ps : List (Kind × Text)} (h : Lexed cs ps) :
    (ps.map (·.2)).flatten = cs := by
  induction h with
  | nil => rfl
  | whitespace _ _ _ ih => simp [ih]
  | ref _ _ _ ih => simp [ih]
  | literal _ _ _ ih => simp [ih]
  | error _ _ _ _ _ _ ih => simp [ih]

theorem Lexed.ne_nil {cs : Text} {ps : List (Kind × Text)} (h : Lexed cs ps) :
    ∀ p ∈ ps, p.2 ≠ [] := by
  induction h with
  | nil => simp
  | whitespace _ _ _ ih => simpa using ih
  | ref _ _ _ ih => simpa using ih
  | literal _ _ _ ih => simpa using ih
  | error _ _ _ _ _ _ ih => simpa using ih

theorem Lexed.length_le {cs : Text} {ps : List (Kind × Text)} (h : Lexed cs ps) :
    ps.length ≤ cs.length := by
  induction h with
  | nil => simp
  | whitespace _ _ _ ih => simp; omega
  | ref _ _ _ ih => simp; omega
  | literal _ _ _ ih => simp; omega
  | error _ _ _ _ _ _ ih => simp; omega

/-! ## The storage -/

theorem storageOf_snoc (defs : List (Text × Text)) (d : Text × Text) :
    storageOf (defs ++ [d]) = (storageOf defs).insert d.1 d.2 := by
  simp [storageOf, List.foldl_append]

theorem meaning_snoc (defs : List (Text × Text)) (d : Text × Text) (name : Text) :
    meaning (defs ++ [d]) name = if d.1 == name then some d.2 else meaning defs name := by
  simp only [meaning, List.reverse_append, List.reverse_cons, List.reverse_nil, List.nil_append,
    List.cons_append, List.find?_cons]
  cases d.1 == name <;> rfl

theorem storage_find (defs : List (Text × Text)) (name : Text) :
    (∀ i, (storageOf defs).find name = some i → ∃ v, meaning defs name = some v ∧
      (storageOf defs).get i = some v) ∧
    ((storageOf defs).find name = none → meaning defs name = none) := by
  generalize hr : defs.reverse = r
  induction r generalizing defs with
  | nil =>
    have : defs = [] := by simpa using hr
    subst this
    exact ⟨fun i h => by simp [storageOf, Storage.empty, Storage.find] at h, fun _ => rfl⟩
  | cons d r ih =>
    have hd : defs = r.reverse ++ [d] := by
      have := congrArg List.reverse hr; simpa using this
    obtain ⟨ih1, ih2⟩ := ih r.reverse (by simp)
    generalize r.reverse = ds at *
    subst hd
    rw [storageOf_snoc, meaning_snoc]
    have hf : ((storageOf ds).insert d.1 d.2).find name =
        if d.1 == name then some (storageOf ds).storage.length else (storageOf ds).find name := by
      simp only [Storage.insert, Storage.find, List.find?_cons]
      cases d.1 == name <;> rfl
    rw [hf]
    cases hn : d.1 == name with
    | true =>
      refine ⟨fun i h => ⟨d.2, rfl, ?_⟩, fun h => by simp at h⟩
      simp at h
      simp [Storage.get, Storage.insert, ← h]
    | false =>
      refine ⟨fun i h => ?_, fun h => ?_⟩
      · simp only [Bool.false_eq_true, if_false] at h ⊢
        obtain ⟨v, h1, h2⟩ := ih1 i h
        refine ⟨v, h1, ?_⟩
        simp only [Storage.get, Storage.insert] at h2 ⊢
        rw [List.getElem?_append_left (by
          have := (List.getElem?_eq_some_iff.1 h2).1; exact this)]
        exact h2
      · simp only [Bool.false_eq_true, if_false] at h ⊢
        exact ih2 h

/-! ## The lexer -/

/-- The token of a piece. -/
def synOf (st : Storage) : Kind × Text → Syn
  | (.whitespace, _) => .whitespace
  | (.literal, _) => .literal
  | (.error, _) => .error
  | (.ref, t) =>
    match st.find t.tail with
    | some id => .synthetic id
    | none => .error

/-- The lexer is in front of `rest`. -/
def Lexer.At (l : Lexer) (pre rest : Text) : Prop :=
  l.source = pre ++ rest ∧ l.it = charIndices (Text.bytes pre) rest ∧ l.len = Text.bytes (pre ++ rest)

theorem Lexer.At.new (source : Text) : (Lexer.new source).At [] source :=
  ⟨rfl, rfl, rfl⟩

theorem Lexer.stop_at (l : Lexer) (a rest : Text) (h : l.len = Text.bytes (a ++ rest)) :
    l.stop (charIndices (Text.bytes a) rest) = Text.bytes a := by
  unfold Lexer.stop
  rw [charIndices_head]
  cases rest with
  | nil => simp [h]
  | cons => rfl

theorem Lexer.At.next {st : Storage} {l : Lexer} {pre rest : Text} {p : Kind × Text}
    {ps : List (Kind × Text)} (h : l.At pre rest) (hl : Lexed rest (p :: ps)) :
    ∃ l' rest', l.next st = .ok (l', some (synOf st p, Text.bytes p.2)) ∧ rest = p.2 ++ rest' ∧
      l'.At (pre ++ p.2) rest' ∧ Lexed rest' ps := by
  cases rest with
  | nil => cases hl
  | cons c cs =>
    obtain ⟨run, rest', ps', e, rfl, hw, hst, hr⟩ := hl.inv
    simp only [List.cons.injEq] at e
    obtain ⟨rfl, rfl⟩ := e
    obtain ⟨source, it, len⟩ := l
    obtain ⟨h1, h2, h3⟩ := h
    simp only at h1 h2 h3
    have hlen : len = Text.bytes ((pre ++ c :: run) ++ rest') := by rw [h3]; simp
    have heat : eat (kindOf c).goes (charIndices (Text.bytes pre + c.utf8Size) (run ++ rest')) =
        charIndices (Text.bytes (pre ++ c :: run)) rest' := by
      rw [eat_run _ hw hst, bytes_append, bytes_cons, Nat.add_assoc]
    have hstop := Lexer.stop_at ⟨source, it, len⟩ (pre ++ c :: run) rest' hlen
    have hscan : (⟨source, it, len⟩ : Lexer).scan st (Text.bytes pre) c
        (charIndices (Text.bytes pre + c.utf8Size) (run ++ rest')) =
        .ok (charIndices (Text.bytes (pre ++ c :: run)) rest', synOf st (kindOf c, c :: run)) := by
      revert heat hw hst
      unfold Lexer.scan kindOf
      by_cases c1 : isWhitespace c = true
      · simp only [if_pos c1]
        intro _ _ heat
        rw [show Kind.whitespace.goes = isWhitespace from rfl] at heat
        rw [heat]; rfl
      · simp only [if_neg c1]
        by_cases c2 : c = '$'
        · simp only [if_pos c2]
          intro _ _ heat
          rw [show Kind.ref.goes = isLower from rfl] at heat
          rw [heat, hstop]
          subst c2
          have hg : source.get (Text.bytes pre + 1, Text.bytes (pre ++ '$' :: run)) = some run := by
            have hu : Char.utf8Size '$' = 1 := by decide
            have := get_append (pre ++ ['$']) run rest'
            rw [bytes_append, bytes_cons, bytes_nil, hu] at this
            rw [bytes_append, bytes_cons, hu, h1]
            simpa [Nat.add_assoc] using this
          rw [hg]
          simp only [synOf, List.tail_cons]
          cases st.find run <;> rfl
        · simp only [if_neg c2]
          by_cases c3 : isAlpha c = true
          · simp only [if_pos c3]
            intro _ _ heat
            rw [show Kind.literal.goes = isAlpha from rfl] at heat
            rw [heat]; rfl
          · simp only [if_neg c3]
            intro _ _ heat
            rw [show Kind.error.goes = fun c => !isWhitespace c from rfl] at heat
            rw [heat]; rfl
    refine ⟨⟨source, charIndices (Text.bytes (pre ++ c :: run)) rest', len⟩, rest', ?_, rfl, ?_, hr⟩
    · unfold Lexer.next
      rw [show (⟨source, it, len⟩ : Lexer).it = (Text.bytes pre, c) ::
        charIndices (Text.bytes pre + c.utf8Size) (run ++ rest') from h2]
      simp only [hscan, hstop]
      rw [bytes_append, Nat.add_sub_cancel_left]
    · exact ⟨by simp [h1], rfl, hlen⟩

theorem Lexer.At.done {st : Storage} {l : Lexer} {pre : Text} (h : l.At pre []) :
    l.next st = .ok (l, none) := by
  unfold Lexer.next
  rw [h.2.1]; rfl

/-! ## The tree -/

/-- Tokens in a row. -/
def flat (st : Storage) : Nat → List (Kind × Text) → Forest (Syn × Span)
  | _, [] => .nil
  | a, p :: ps =>
    .cons (synOf st p, ⟨a, a + Text.bytes p.2⟩) .nil (flat st (a + Text.bytes p.2) ps)

theorem tokenLoop_ok {ib pw : Nat} {st : Storage} : ∀ (ps : List (Kind × Text)) (fuel : Nat) (l : Lexer)
    (pre rest : Text) (s : Sys Syn) (n : Nest Syn) (L : Lev Syn),
    ps.length < fuel → l.At pre rest → Lexed rest ps → Cli ib pw s n L [] 0 → L.pos = Text.bytes pre →
    Text.bytes (pre ++ rest) < 2 ^ ib → L.cur.size + ps.length < 2 ^ pw - 1 →
    ∃ s' n', tokenLoop (Flavor.sized ib pw) st fuel l s = .ok s' ∧
      Cli ib pw s' n' ⟨L.cur ++ flat st L.pos ps, Text.bytes (pre ++ rest)⟩ [] 0 := by
  intro ps
  induction ps with
  | nil =>
    intro fuel l pre rest s n L hf hat hl hc hp _ _
    cases fuel with
    | zero => omega
    | succ fuel =>
      cases hl
      refine ⟨s, n, ?_, ?_⟩
      · unfold tokenLoop; rw [hat.done]
      · simp only [flat, append_nil, List.append_nil, ← hp]; exact hc
  | cons p ps ih =>
    intro fuel l pre rest s n L hf hat hl hc hp hb hn
    cases fuel with
    | zero => omega
    | succ fuel =>
      obtain ⟨l', rest', e, rfl, hat', hl'⟩ := hat.next (st := st) hl
      have hb' : Text.bytes pre + (Text.bytes p.2 + Text.bytes rest') < 2 ^ ib := by
        simpa [bytes_append] using hb
      simp only [List.length_cons] at hf hn
      obtain ⟨s1, n1, e1, c1, _⟩ := hc.token (synOf st p) (Text.bytes p.2) (by omega) (by omega)
      obtain ⟨s', n', e2, c2⟩ := ih fuel l' (pre ++ p.2) rest' s1 n1 _ (by omega) hat' hl' c1
        (by simp [Lev.tok, hp, bytes_append]) (by simpa using hb)
        (by simp only [Lev.tok, size_append, Forest.size]; omega)
      refine ⟨s', n', ?_, ?_⟩
      · unfold tokenLoop; simp only [e, e1]; exact e2
      · have : L.cur ++ flat st L.pos (p :: ps) =
            L.cur ++ leaf (synOf st p, (⟨L.pos, L.pos + Text.bytes p.2⟩ : Span)) ++
              flat st (L.pos + Text.bytes p.2) ps := by
          rw [append_assoc]; rfl
        rw [this]
        simpa [Lev.tok] using c2

theorem flat_width (st : Storage) (a : Nat) (ps : List (Kind × Text)) :
    (flat st a ps).size = ps.length := by
  induction ps generalizing a with
  | nil => rfl
  | cons p ps ih => simp only [flat, Forest.size, ih, List.length_cons]; omega

/-! ## The loop over the roots -/

theorem evalLoop_ok {g : Bool} {t : Tree Syn} {F : Forest (Lab Syn)} (h : Represents g t F)
    (defs : List (Text × Text)) (source : Text) : ∀ (ps : List (Kind × Text)) (count : Nat)
    (pre : Text) (left right : Forest (Lab Syn)), F = left ++ right →
    right.content = flat (storageOf defs) (Text.bytes pre) ps →
    source = pre ++ (ps.map (·.2)).flatten →
    evalLoop (storageOf defs) source t.nodes count right.topIds = .ok (linesFor defs count ps) := by
  intro ps
  induction ps with
  | nil =>
    intro count pre left right hF hc hs
    cases right with
    | nil => rfl
    | cons x k r => simp [content, Forest.map, flat] at hc
  | cons p ps ih =>
    intro count pre left right hF hc hs
    cases right with
    | nil => simp [content, Forest.map, flat] at hc
    | cons x k r =>
      simp only [content, Forest.map, flat, Forest.cons.injEq, Prod.mk.injEq] at hc
      obtain ⟨⟨hd, hsp⟩, -, hr⟩ := hc
      obtain ⟨_, hv, hspan, _⟩ := h.node_get (Loc.root hF)
      have hrange : nodeRange Flavor.default.ik t.nodes x.id =
          some (Text.bytes pre, Text.bytes pre + Text.bytes p.2) := by
        unfold nodeSpan at hspan
        unfold nodeRange
        cases hx : t.nodes[x.id]? with
        | none => rw [hx] at hspan; simp at hspan
        | some lk =>
          rw [hx] at hspan
          simp only [Option.map_some, Option.some.injEq] at hspan ⊢
          rw [hspan, hsp]; rfl
      have hget : source.get (Text.bytes pre, Text.bytes pre + Text.bytes p.2) = some p.2 := by
        have := get_append pre p.2 (ps.map (·.2)).flatten
        rw [hs]
        simpa using this
      have next : ∀ c, evalLoop (storageOf defs) source t.nodes c r.topIds =
          .ok (linesFor defs c ps) := fun c =>
        ih c (pre ++ p.2) (left ++ .cons x k .nil) r (by rw [hF, append_assoc]; rfl)
          (by rw [bytes_append]; exact hr) (by rw [hs]; simp)
      have htop : (Forest.cons x k r).topIds = x.id :: r.topIds := by simp [topIds]
      rw [htop]
      unfold evalLoop evalNode
      obtain ⟨kind, text⟩ := p
      simp only [hv, hrange, hd]
      cases kind with
      | whitespace => simp [synOf, next, linesFor]
      | literal => simp only at hget; simp [synOf, hget, next, linesFor]
      | error => simp only at hget; simp [synOf, hget, next, linesFor]
      | ref =>
        simp only at hget
        simp only [synOf]
        cases hf : (storageOf defs).find text.tail with
        | none =>
          have := (storage_find defs text.tail).2 hf
          simp [hget, next, linesFor, this]
        | some i =>
          obtain ⟨v, h1, h2⟩ := (storage_find defs text.tail).1 i hf
          simp [h2, next, linesFor, h1]

theorem run_ok (defs : List (Text × Text)) {source : Text} {ps : List (Kind × Text)}
    (hb : Text.bytes source < 2 ^ 32) (hl : Lexed source ps) :
    run (storageOf defs) source = .ok (linesFor defs 0 ps) := by
  have h1 := hl.length_le
  have h2 := length_le_bytes source
  obtain ⟨s, n, e, c⟩ := tokenLoop_ok (ib := 32) (pw := 64) (st := storageOf defs) ps (source.length + 1)
    (Lexer.new source) [] source Sys.init Nest.init ⟨.nil, 0⟩ (by omega) (Lexer.At.new source) hl
    Cli.init rfl (by simpa using hb) (by simp only [Forest.size]; omega)
  have hst : n.stack = [] := by
    have := c.stack
    cases hs : n.stack with
    | nil => rfl
    | cons y ys => rw [hs] at this; exact this.elim
  obtain ⟨ops, t, _, hbd, hbt, _⟩ := c.logged.built hst
  have hrep := hbt.represents
  unfold run
  rw [Flavor.default_eq, e]
  simp only [hbd]
  rw [forLoop_of_yields hrep.children]
  · simp only [List.map_id]
    exact evalLoop_ok hrep defs source ps 0 [] .nil n.cur rfl
      (by rw [c.cur]; rfl) (by rw [hl.texts]; rfl)
  · have := @Calc.topIds_le Syn n.cur
    have := hrep.size
    omega

end Syntree.Synth
