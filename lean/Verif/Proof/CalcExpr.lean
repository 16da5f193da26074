import Verif.Proof.CalcEval

/-! Well-formed expressions: their tokens, the nested list the parser makes of them, and what the
evaluator computes. -/

namespace Syntree.Calc

open Forest

/-! ## Tokens -/

def Bin.syn : Bin → Syn
  | .add => .plus
  | .sub => .minus
  | .mul => .mul
  | .div => .div
  | .pow => .pow

def blank (ws : Text) : List (Syn × Text) := if ws = [] then [] else [(.whitespace, ws)]

@[simp] theorem blank_nil : blank [] = [] := rfl

def Expr.pieces : Expr → List (Syn × Text)
  | .num ds ws => (.number, ds) :: blank ws
  | .paren ws e ws' => (.openParen, ['(']) :: (blank ws ++ e.pieces) ++ (.closeParen, [')']) :: blank ws'
  | .bin l o ws r => l.pieces ++ (o.syn, [o.char]) :: (blank ws ++ r.pieces)

theorem symbol_char (o : Bin) : symbol o.char = some o.syn := by cases o <;> rfl

theorem symbol_stops {c : Char} {k : Syn} (h : symbol c = some k) (cs : Text) :
    Stops isDigit (c :: cs) ∧ Stops isWhitespace (c :: cs) := by
  have h2 : isDigit c = false ∧ isWhitespace c = false := by
    unfold symbol at h
    split at h <;> first | decide | cases h
  exact ⟨fun x hx => by simp at hx; rw [← hx]; exact h2.1, fun x hx => by simp at hx; rw [← hx]; exact h2.2⟩

theorem lexed_blank {ws : Text} (hw : ∀ c ∈ ws, isWhitespace c) {rest : Text}
    {ps : List (Syn × Text)} (hs : Stops isWhitespace rest) (h : Lexed rest ps) :
    Lexed (ws ++ rest) (blank ws ++ ps) := by
  cases ws with
  | nil => exact h
  | cons c run => exact .whitespace hw hs h

theorem ws_not_digit {c : Char} (h : isWhitespace c = true) : isDigit c = false := by
  cases hd : isDigit c with
  | false => rfl
  | true =>
    simp only [isDigit, isWhitespace, Bool.and_eq_true, Bool.or_eq_true, decide_eq_true_eq,
      beq_iff_eq] at h hd
    omega

theorem digit_not_ws {c : Char} (h : isDigit c = true) : isWhitespace c = false := by
  cases hd : isWhitespace c with
  | false => rfl
  | true => rw [ws_not_digit hd] at h; exact absurd h (by simp)

theorem stops_append {p : Char → Bool} {a b : Text} (ha : ∀ c ∈ a, p c = false) (hb : Stops p b) :
    Stops p (a ++ b) := by
  cases a with
  | nil => exact hb
  | cons c a => intro x hx; simp at hx; exact ha x (by simp [hx])

theorem text_stops_ws {e : Expr} (h : e.WF) (rest : Text) : Stops isWhitespace (e.text ++ rest) := by
  induction e generalizing rest with
  | num ds ws =>
    obtain ⟨h1, h2, _⟩ := h
    cases ds with
    | nil => exact absurd rfl h1
    | cons c ds =>
      intro x hx
      simp [Expr.text] at hx
      rw [← hx]
      exact digit_not_ws (h2 c (by simp))
  | paren ws e ws' _ =>
    intro x hx
    simp [Expr.text] at hx
    rw [← hx]; rfl
  | bin l o ws r ihl _ =>
    simp only [Expr.text, List.append_assoc]
    exact ihl h.1 _

theorem lexed_expr {e : Expr} (h : e.WF) {rest : Text} {ps : List (Syn × Text)}
    (hd : Stops isDigit rest) (hs : Stops isWhitespace rest) (hr : Lexed rest ps) :
    Lexed (e.text ++ rest) (e.pieces ++ ps) := by
  induction e generalizing rest ps with
  | num ds ws =>
    obtain ⟨h1, h2, h3⟩ := h
    cases ds with
    | nil => exact absurd rfl h1
    | cons c ds =>
      have := lexed_blank h3 hs hr
      have h4 := Lexed.number (c := c) (run := ds) h2
        (stops_append (fun x hx => ws_not_digit (h3 x hx)) hd) this
      simpa [Expr.text, Expr.pieces] using h4
  | paren ws e ws' ih =>
    obtain ⟨h1, h2, h3⟩ := h
    have h4 := lexed_blank h3 hs hr
    have h5 := Lexed.symbol (c := ')') rfl h4
    obtain ⟨s1, s2⟩ := symbol_stops (c := ')') rfl (ws' ++ rest)
    have h6 := ih h2 s1 s2 h5
    have h7 := lexed_blank h1 (text_stops_ws h2 _) h6
    have h8 := Lexed.symbol (c := '(') rfl h7
    simpa [Expr.text, Expr.pieces] using h8
  | bin l o ws r ihl ihr =>
    obtain ⟨h1, h2, h3, _, _⟩ := h
    have h4 := lexed_blank h3 (text_stops_ws h2 _) (ihr h2 hd hs hr)
    have h5 := Lexed.symbol (symbol_char o) h4
    obtain ⟨s1, s2⟩ := symbol_stops (symbol_char o) (ws ++ (r.text ++ rest))
    have h6 := ihl h1 s1 s2 h5
    simpa [Expr.text, Expr.pieces] using h6

theorem lexed_source {ws : Text} (hw : ∀ c ∈ ws, isWhitespace c) {e : Expr} (h : e.WF) :
    Lexed (ws ++ e.text) (blank ws ++ e.pieces) := by
  have h1 := lexed_expr h (rest := []) (ps := []) (by simp [Stops]) (by simp [Stops]) .nil
  have h2 := text_stops_ws h []
  rw [List.append_nil, List.append_nil] at h1
  rw [List.append_nil] at h2
  exact lexed_blank hw h2 h1

/-! ## The left spine -/

abbrev Ops := List (Bin × Text × Expr)

def Expr.atom : Expr → Expr
  | .bin l _ _ _ => l.atom
  | e => e

def Expr.ops : Expr → Ops
  | .bin l o ws r => l.ops ++ [(o, ws, r)]
  | _ => []

def opsPieces : Ops → List (Syn × Text)
  | [] => []
  | (o, ws, r) :: L => (o.syn, [o.char]) :: (blank ws ++ r.pieces ++ opsPieces L)

theorem opsPieces_append (L L' : Ops) : opsPieces (L ++ L') = opsPieces L ++ opsPieces L' := by
  induction L with
  | nil => rfl
  | cons x L ih => obtain ⟨o, ws, r⟩ := x; simp [opsPieces, ih]

theorem pieces_spine (e : Expr) : e.pieces = e.atom.pieces ++ opsPieces e.ops := by
  induction e with
  | num => simp [Expr.atom, Expr.ops, opsPieces]
  | paren => simp [Expr.atom, Expr.ops, opsPieces]
  | bin l o ws r ihl _ =>
    simp only [Expr.atom, Expr.ops, opsPieces_append, opsPieces]
    rw [Expr.pieces, ihl]; simp

/-- The operators of a left spine: they bind less and less tightly, operands bind more tightly. -/
def OpsOk : Nat → Ops → Prop
  | _, [] => True
  | m, (o, _, r) :: L => o.level ≤ m ∧ r.WF ∧ o.level < r.level ∧ OpsOk o.level L

theorem OpsOk.snoc {o : Bin} {ws : Text} {r : Expr} (hr : r.WF) (hl : o.level < r.level) :
    ∀ {L : Ops} {m : Nat}, OpsOk m L → o.level ≤ m → (∀ x ∈ L, o.level ≤ x.1.level) →
    OpsOk m (L ++ [(o, ws, r)]) := by
  intro L
  induction L with
  | nil => intro m _ h _; exact ⟨h, hr, hl, trivial⟩
  | cons x L ih =>
    intro m h1 h2 h3
    obtain ⟨o', ws', r'⟩ := x
    obtain ⟨g1, g2, g3, g4⟩ := h1
    exact ⟨g1, g2, g3, ih g4 (h3 (o', ws', r') (by simp)) (fun y hy => h3 y (by simp [hy]))⟩

theorem level_le (o : Bin) : o.level ≤ 3 := by cases o <;> decide

theorem Expr.WF.spine {e : Expr} (h : e.WF) :
    e.atom.WF ∧ OpsOk 3 e.ops ∧ ∀ x ∈ e.ops, e.level ≤ x.1.level := by
  induction e with
  | num => exact ⟨h, trivial, by simp [Expr.ops]⟩
  | paren => exact ⟨h, trivial, by simp [Expr.ops]⟩
  | bin l o ws r ihl _ =>
    obtain ⟨h1, h2, _, h4, h5⟩ := h
    obtain ⟨g1, g2, g3⟩ := ihl h1
    refine ⟨g1, g2.snoc h2 h5 (level_le o) (fun x hx => Nat.le_trans h4 (g3 x hx)), ?_⟩
    intro x hx
    simp only [Expr.ops, List.mem_append, List.mem_singleton] at hx
    rcases hx with hx | rfl
    · exact Nat.le_trans h4 (g3 x hx)
    · exact Nat.le_refl _

/-- Evaluate the operators of a left spine from left to right. -/
def foldOps : Int → Ops → Except Kind Int
  | a, [] => .ok a
  | a, (o, _, r) :: L =>
    match r.computed with
    | .error k => .error k
    | .ok b =>
      match o.apply a b with
      | .error k => .error k
      | .ok n => foldOps n L

/-- Go on with the operators. -/
def andThen (c : Except Kind Int) (L : Ops) : Except Kind Int :=
  match c with
  | .error k => .error k
  | .ok a => foldOps a L

theorem foldOps_append (L L' : Ops) (a : Int) : foldOps a (L ++ L') =
    andThen (foldOps a L) L' := by
  induction L generalizing a with
  | nil => rfl
  | cons x L ih =>
    obtain ⟨o, ws, r⟩ := x
    simp only [List.cons_append, foldOps]
    cases r.computed with
    | error k => rfl
    | ok b =>
      simp only
      cases o.apply a b with
      | error k => rfl
      | ok n => exact ih n

theorem andThen_nil (c : Except Kind Int) : andThen c [] = c := by cases c <;> rfl

theorem computed_spine (e : Expr) : e.computed = andThen e.atom.computed e.ops := by
  induction e with
  | num ds ws => exact (andThen_nil _).symm
  | paren ws e ws' _ => exact (andThen_nil _).symm
  | bin l o ws r ihl _ =>
    simp only [Expr.atom, Expr.ops, foldOps_append]
    simp only [Expr.computed, ihl]
    cases l.atom.computed with
    | error k => rfl
    | ok a =>
      simp only [andThen, foldOps_append]
      cases foldOps a l.ops with
      | error k => rfl
      | ok n =>
        simp only [foldOps]
        cases r.computed with
        | error k => rfl
        | ok b => simp only; cases o.apply n b <;> rfl

/-! ## Priorities -/

def Bin.left (o : Bin) : Nat := ((op o.syn).map (·.1)).getD 0
def Bin.right (o : Bin) : Nat := ((op o.syn).map (·.2)).getD 0

theorem op_syn (o : Bin) : op o.syn = some (o.left, o.right) := by cases o <;> rfl
theorem syn_ne (o : Bin) : o.syn ≠ .whitespace := by cases o <;> decide
theorem right_eq (o : Bin) : o.right = o.left + 1 := by cases o <;> decide
theorem left_mono {o o' : Bin} (h : o.level ≤ o'.level) : o.left ≤ o'.left := by
  cases o <;> cases o' <;> revert h <;> decide
theorem left_lt {o o' : Bin} (h : o.level < o'.level) : o.right ≤ o'.left := by
  cases o <;> cases o' <;> revert h <;> decide

theorem table_syn (o : Bin) : ∃ f err, table o.syn = some (f, err) ∧ ∀ a b, o.apply a b =
    match f a b with
    | some n => .ok n
    | none => .error err := by
  cases o with
  | add => exact ⟨_, _, rfl, fun a b => by simp only [Bin.apply, checkedAdd, checkI64]; split <;> rfl⟩
  | sub => exact ⟨_, _, rfl, fun a b => by simp only [Bin.apply, checkedSub, checkI64]; split <;> rfl⟩
  | mul => exact ⟨_, _, rfl, fun a b => by simp only [Bin.apply, checkedMul, checkI64]; split <;> rfl⟩
  | div =>
    exact ⟨_, _, rfl, fun a b => by
      simp only [Bin.apply, checkedDiv, checkI64]
      by_cases hb : b = 0
      · simp [hb]
      · rw [if_neg hb, if_neg hb]; split <;> rfl⟩
  | pow =>
    refine ⟨_, _, rfl, fun a b => ?_⟩
    simp only [Bin.apply, Calc.pow, tryU32, checkedPow, checkI64]
    by_cases hb : 0 ≤ b ∧ b < 2 ^ 32
    · rw [if_pos hb]
      simp only
      by_cases hi : inI64 (a ^ b.toNat) = true
      · rw [if_pos ⟨hb.1, hb.2, hi⟩, if_pos hi]
      · rw [if_neg (fun h => hi h.2.2), if_neg hi]
    · rw [if_neg hb, if_neg (fun h => hb ⟨h.1, h.2.1⟩)]

theorem parse_digits {ds : Text} (hn : ds ≠ []) (hd : ∀ c ∈ ds, isDigit c) :
    parseI64 ds = if inI64 (decimal ds) then some (decimal ds : Int) else none := by
  have h1 : ds.isEmpty = false := by cases ds <;> simp_all
  have h2 : ds.all isDigit = true := by rw [List.all_eq_true]; exact hd
  unfold parseI64
  split
  · exact absurd (hd '+' (by simp)) (by decide)
  · exact absurd (hd '-' (by simp)) (by decide)
  · simp [h1, h2]

/-! ## Positions -/

/-- What is left of the source at `pos` are the pieces. -/
def Reads (source : Text) (pos : Nat) (ps : List (Syn × Text)) : Prop :=
  ∃ pre, source = pre ++ (ps.map (·.2)).flatten ∧ Text.bytes pre = pos

theorem Reads.cons {source : Text} {pos : Nat} {p : Syn × Text} {ps : List (Syn × Text)}
    (h : Reads source pos (p :: ps)) : Reads source (pos + Text.bytes p.2) ps ∧
    source.get (pos, pos + Text.bytes p.2) = some p.2 := by
  obtain ⟨pre, rfl, rfl⟩ := h
  refine ⟨⟨pre ++ p.2, by simp, by rw [bytes_append]⟩, ?_⟩
  have := get_append pre p.2 (ps.map (·.2)).flatten
  simpa using this

theorem Reads.blank {source : Text} {pos : Nat} {ws : Text} {ps : List (Syn × Text)}
    (h : Reads source pos (blank ws ++ ps)) : Reads source (pos + Text.bytes ws) ps := by
  unfold Calc.blank at h
  split at h
  · rename_i e
    subst e
    simpa [Text.bytes] using h
  · exact h.cons.1

def blankF (pos : Nat) (ws : Text) : Forest (Syn × Span) :=
  if ws = [] then .nil else leaf (.whitespace, ⟨pos, pos + Text.bytes ws⟩)

@[simp] theorem blankF_nil (pos : Nat) : blankF pos [] = .nil := rfl

theorem branches_append {β : Type} (F G : Forest β) : branches (F ++ G) = branches F ++ branches G := by
  induction F with
  | nil => rfl
  | cons x k r _ ih =>
    cases k with
    | nil => simp only [cons_append, branches, ih]
    | cons y k k' => simp only [cons_append, branches, ih, List.cons_append]

@[simp] theorem branches_blankF (pos : Nat) (ws : Text) : branches (blankF pos ws) = [] := by
  unfold blankF; split <;> rfl

/-- The next piece is no whitespace. -/
def NoWs (b : List (Syn × Text)) : Prop := ∀ p, b.head? = some p → p.1 ≠ .whitespace

theorem skip_blank {cur : Forest (Syn × Span)} {pos : Nat} {ws : Text} {b : List (Syn × Text)}
    (hb : NoWs b) : (⟨⟨cur, pos⟩, (blank ws ++ b).map tokenOf⟩ : St).skip =
      ⟨⟨cur ++ blankF pos ws, pos + Text.bytes ws⟩, b.map tokenOf⟩ := by
  have h1 : ∀ L : Lev Syn, (⟨L, b.map tokenOf⟩ : St).skip = ⟨L, b.map tokenOf⟩ := by
    intro L
    cases b with
    | nil => rfl
    | cons p b => exact skip_of_head (hb p rfl)
  unfold blank blankF
  split
  · rename_i e
    subst e
    simpa [Text.bytes] using h1 ⟨cur, pos⟩
  · have : (⟨⟨cur, pos⟩, ([(Syn.whitespace, ws)] ++ b).map tokenOf⟩ : St).skip =
        (⟨Lev.tok ⟨cur, pos⟩ .whitespace (Text.bytes ws), b.map tokenOf⟩ : St).skip := rfl
    rw [this, h1]; rfl

/-- The piece that follows is no whitespace and no operator that binds at least as tightly as
`min`. -/
def Follow (min : Nat) (b : List (Syn × Text)) : Prop :=
  ∀ p, b.head? = some p → p.1 ≠ .whitespace ∧ ∀ l r, op p.1 = some (l, r) → l < min

theorem Follow.noWs {min : Nat} {b : List (Syn × Text)} (h : Follow min b) : NoWs b :=
  fun p hp => (h p hp).1

theorem noWs_ops {L : Ops} {b : List (Syn × Text)} (h : NoWs b) : NoWs (opsPieces L ++ b) := by
  cases L with
  | nil => exact h
  | cons x L =>
    obtain ⟨o, ws, r⟩ := x
    intro p hp
    simp only [opsPieces, List.cons_append, List.head?_cons, Option.some.injEq] at hp
    rw [← hp]; exact syn_ne o

theorem noWs_expr (e : Expr) (b : List (Syn × Text)) : NoWs (e.pieces ++ b) := by
  induction e generalizing b with
  | num ds ws => intro p hp; simp [Expr.pieces] at hp; rw [← hp]; exact (by decide : Syn.number ≠ .whitespace)
  | paren ws e ws' _ => intro p hp; simp [Expr.pieces] at hp; rw [← hp]; decide
  | bin l o ws r ihl _ => rw [Expr.pieces, List.append_assoc]; exact ihl _

/-! ## What the evaluator computes -/

/-- If evaluation ends, the result is `c`. -/
def Agrees (source : Text) (x : Syn × Span) (k : Forest (Syn × Span)) (c : Except Kind Int) : Prop :=
  ∀ fuel v, evalF source fuel x k = some v → kindOf v = c

def OpsAgree (source : Text) (G : Forest (Syn × Span)) (L : Ops) : Prop :=
  ∀ fuel span base v, opsF source fuel span (branches G) base = some v → kindOf v = foldOps base L

theorem agrees_number {source : Text} {pos : Nat} {ds : Text} {k : Forest (Syn × Span)}
    (hg : source.get (pos, pos + Text.bytes ds) = some ds) (hn : ds ≠ []) (hd : ∀ c ∈ ds, isDigit c)
    (ws : Text) :
    Agrees source (.number, ⟨pos, pos + Text.bytes ds⟩) k (Expr.computed (.num ds ws)) := by
  intro fuel v h
  cases fuel with
  | zero => simp [evalF] at h
  | succ fuel =>
    have hg' : source.get (Span.range Flavor.default.ik ⟨pos, pos + Text.bytes ds⟩) = some ds := hg
    simp only [evalF, hg', parse_digits hn hd] at h
    unfold Expr.computed
    split at h
    · rename_i e
      split at e
      · simp at e
      · rename_i hi
        rw [if_neg hi]
        simp only [Option.some.injEq] at h
        rw [← h]; rfl
    · rename_i e
      split at e
      · rename_i hi
        rw [if_pos hi]
        simp only [Option.some.injEq] at h e
        rw [← h, ← e]; rfl
      · simp at e

theorem agrees_other {source : Text} {x : Syn × Span} {k : Forest (Syn × Span)}
    (h : x.1 = .whitespace ∨ x.1 = .openParen) :
    Agrees source x k (.error (.expected .number x.1)) := by
  intro fuel v hv
  cases fuel with
  | zero => simp [evalF] at hv
  | succ fuel =>
    obtain ⟨d, sp⟩ := x
    rcases h with h | h <;> (simp only at h; subst h; simp only [evalF, Option.some.injEq] at hv; rw [← hv]; rfl)

theorem agrees_group {source : Text} {sp : Span} {y : Syn × Span} {k r : Forest (Syn × Span)}
    {c : Except Kind Int} (h : Agrees source y k c) : Agrees source (.group, sp) (.cons y k r) c := by
  intro fuel v hv
  cases fuel with
  | zero => simp [evalF] at hv
  | succ fuel => simp only [evalF] at hv; exact h _ _ hv

theorem agrees_operation {source : Text} {sp : Span} {G G' : Forest (Syn × Span)}
    {y : Syn × Span} {k : Forest (Syn × Span)} {c : Except Kind Int} {L : Ops}
    (hb : branches G = [(y, k)]) (h : Agrees source y k c) (h' : OpsAgree source G' L) :
    Agrees source (.operation, sp) (G ++ G') (andThen c L) := by
  intro fuel v hv
  cases fuel with
  | zero => simp [evalF] at hv
  | succ fuel =>
    simp only [evalF, branches_append, hb, List.cons_append, List.nil_append] at hv
    cases he : evalF source fuel y k with
    | none => rw [he] at hv; simp at hv
    | some w =>
      have := h _ _ he
      rw [he] at hv
      cases w with
      | error e =>
        simp only [Option.some.injEq] at hv
        rw [← hv, ← this]; rfl
      | ok n =>
        simp only at hv
        rw [← this]
        exact h' _ _ _ _ hv

theorem opsAgree_nil (source : Text) : OpsAgree source .nil [] := by
  intro fuel span base v h
  cases fuel with
  | zero => simp [opsF] at h
  | succ fuel => simp only [branches, opsF, Option.some.injEq] at h; rw [← h]; rfl

theorem opsAgree_cons {source : Text} {o : Bin} {ws : Text} {r : Expr} {L : Ops}
    {x : Syn × Span} {sp : Span} {B G G' : Forest (Syn × Span)} {y : Syn × Span}
    {k : Forest (Syn × Span)} (hB : branches B = []) (hb : branches G = [(y, k)])
    (h : Agrees source y k r.computed) (h' : OpsAgree source G' L) :
    OpsAgree source (single x (leaf (o.syn, sp)) ++ (B ++ (G ++ G'))) ((o, ws, r) :: L) := by
  intro fuel span base v hv
  cases fuel with
  | zero => simp [opsF] at hv
  | succ fuel =>
    obtain ⟨f, err, ht, ha⟩ := table_syn o
    have hbr : branches (single x (leaf (o.syn, sp)) ++ (B ++ (G ++ G'))) =
        (x, leaf (o.syn, sp)) :: (y, k) :: branches G' := by
      rw [branches_append, branches_append, branches_append, hB, hb]; rfl
    rw [hbr] at hv
    simp only [opsF, ht] at hv
    simp only [foldOps]
    cases he : evalF source fuel y k with
    | none => rw [he] at hv; simp at hv
    | some w =>
      have := h _ _ he
      rw [he] at hv
      cases w with
      | error e =>
        simp only [Option.some.injEq] at hv
        rw [← hv, ← this]; rfl
      | ok n =>
        simp only at hv
        rw [← this]
        simp only [kindOf, ha base n]
        cases hf : f base n with
        | none =>
          rw [hf] at hv
          simp only [Option.some.injEq] at hv
          rw [← hv]
        | some m =>
          rw [hf] at hv
          simp only at hv
          exact h' _ _ _ _ hv

/-! ## What the parser makes of an expression -/

/-- The first node of an expression. -/
def FirstOk (e : Expr) (G : Forest (Syn × Span)) (y : Syn × Span) (k : Forest (Syn × Span)) : Prop :=
  ∃ z kz r, G = .cons z kz r ∧
    match e with
    | .paren .. => z.1 = .openParen
    | _ => z = y ∧ kz = k

theorem head_cons {L : Lev Syn} {p : Syn × Text} {ps : List (Syn × Text)} :
    (⟨L, (p :: ps).map tokenOf⟩ : St).head = ⟨Text.bytes p.2, p.1⟩ := rfl

theorem wrap_new {cur G : Forest (Syn × Span)} {pos : Nat} {ts : List Token} {d : Syn}
    (hG : G ≠ .nil) :
    (⟨⟨cur ++ G, pos⟩, ts⟩ : St).wrap cur.width d =
      ⟨⟨cur ++ single (d, stretchC G) G, pos⟩, ts⟩ := by
  unfold St.wrap Lev.wrap
  simp only [drop_append_width, take_append_width]
  cases G with
  | nil => exact absurd rfl hG
  | cons x k r => rfl

theorem finish_expr {source : Text} {e : Expr} {base G : Forest (Syn × Span)} {G0 : Forest (Syn × Span)}
    {pos' : Nat} {b : List Token} {o : Bool} {y : Syn × Span} {k : Forest (Syn × Span)}
    (ho : o = !e.ops.isEmpty) (hG : e.ops = [] → G = .nil)
    (hb : branches G0 = [(y, k)]) (ha : Agrees source y k e.atom.computed)
    (hf : FirstOk e.atom G0 y k) (hops : OpsAgree source G e.ops) :
    ∃ G1 y1 k1, (if o then (⟨⟨base ++ (G0 ++ G), pos'⟩, b⟩ : St).wrap base.width .operation
        else ⟨⟨base ++ (G0 ++ G), pos'⟩, b⟩) = ⟨⟨base ++ G1, pos'⟩, b⟩ ∧
      branches G1 = [(y1, k1)] ∧ Agrees source y1 k1 e.computed ∧ FirstOk e G1 y1 k1 := by
  obtain ⟨z, kz, r, e0, hz⟩ := hf
  rw [computed_spine e]
  cases hops' : e.ops with
  | nil =>
    rw [hops'] at ho
    simp only [List.isEmpty_nil, Bool.not_true] at ho
    subst ho
    rw [hG hops']
    have hat : e.atom = e := by
      cases e with
      | bin l o ws r => simp [Expr.ops] at hops'
      | _ => rfl
    refine ⟨G0, y, k, by simp, hb, ?_, ?_⟩
    · intro fuel v hv
      rw [ha _ _ hv, andThen_nil]
    · rw [hat] at hz
      exact ⟨z, kz, r, e0, hz⟩
  | cons x L =>
    have ho' : o = true := by rw [ho, hops']; rfl
    subst ho'
    have hne : G0 ++ G ≠ .nil := by rw [e0]; simp [cons_append]
    simp only [if_true, wrap_new hne]
    refine ⟨_, (.operation, stretchC (G0 ++ G)), G0 ++ G, rfl, ?_, ?_, ?_⟩
    · rw [e0]; rfl
    · have := agrees_operation (sp := stretchC (G0 ++ G)) hb ha hops
      rw [hops'] at this
      exact this
    · refine ⟨_, _, _, rfl, ?_⟩
      cases e with
      | bin l o ws r => exact ⟨rfl, rfl⟩
      | num => simp [Expr.ops] at hops'
      | paren => simp [Expr.ops] at hops'

theorem pexpr_number {fuel min : Nat} {s s1 : St} (hs : s.skip = s1) (h : s1.head.syn = .number) :
    pexpr (fuel + 1) min s = finish s1.width (ploop fuel min false (s1.bump .number)) := by
  subst hs
  simp [pexpr, h]

theorem pexpr_paren {fuel min : Nat} {s s1 s2 : St} {s' : St} (hs : s.skip = s1) (h : s1.head.syn = .openParen)
    (ht : s1.take = s2) (he : pexpr (fuel + 1) min s = some s') : ∃ s3, pexpr fuel 0 s2 = some s3 ∧
      ((s3.wrap s2.width .group).skip.head.syn = .closeParen →
        finish s1.width (ploop fuel min false (s3.wrap s2.width .group).skip.take) = some s') := by
  subst hs ht
  simp only [pexpr, h, if_true] at he
  cases hp : pexpr fuel 0 s.skip.take with
  | none => rw [hp] at he; simp at he
  | some s3 =>
    rw [hp] at he
    exact ⟨s3, rfl, fun hc => by simpa [hc] using he⟩

theorem ploop_stop {fuel min : Nat} {o : Bool} {s s1 : St} (hs : s.skip = s1)
    (h : ∀ l r, op s1.head.syn = some (l, r) → l < min) :
    ploop (fuel + 1) min o s = some (o, s1) := by
  subst hs
  unfold ploop
  cases hop : op s.skip.head.syn with
  | none => rfl
  | some lr =>
    obtain ⟨l, r⟩ := lr
    have := h l r hop
    simp only
    rw [if_neg (by omega)]

theorem ploop_op {fuel min l r : Nat} {o : Bool} {s s1 : St} {res : Bool × St} (hs : s.skip = s1)
    (h : op s1.head.syn = some (l, r)) (hm : min ≤ l) (he : ploop (fuel + 1) min o s = some res) :
    ∃ s2, pexpr fuel r (s1.bump .operator) = some s2 ∧ ploop fuel min true s2 = some res := by
  subst hs
  simp only [ploop, h, if_pos hm] at he
  cases hp : pexpr fuel r (s.skip.bump .operator) with
  | none => rw [hp] at he; simp at he
  | some s2 => rw [hp] at he; exact ⟨s2, rfl, he⟩

theorem pexpr_expr (source : Text) (fuel : Nat) :
    (∀ (e : Expr) (min : Nat) (cur : Forest (Syn × Span)) (pos : Nat) (ws : Text)
      (b : List (Syn × Text)) (s' : St), e.WF → (∀ x ∈ e.ops, min ≤ x.1.left) → Follow min b →
      Reads source pos (blank ws ++ (e.pieces ++ b)) →
      pexpr fuel min ⟨⟨cur, pos⟩, (blank ws ++ (e.pieces ++ b)).map tokenOf⟩ = some s' →
      ∃ G y k pos', s' = ⟨⟨cur ++ (blankF pos ws ++ G), pos'⟩, b.map tokenOf⟩ ∧
        Reads source pos' b ∧ branches G = [(y, k)] ∧ Agrees source y k e.computed ∧
        FirstOk e G y k) ∧
    (∀ (L : Ops) (m min : Nat) (cur : Forest (Syn × Span)) (pos : Nat) (ws : Text)
      (b : List (Syn × Text)) (flag o : Bool) (s' : St), OpsOk m L → (∀ x ∈ L, min ≤ x.1.left) →
      Follow min b → Reads source pos (blank ws ++ (opsPieces L ++ b)) →
      ploop fuel min flag ⟨⟨cur, pos⟩, (blank ws ++ (opsPieces L ++ b)).map tokenOf⟩ = some (o, s') →
      ∃ G pos', s' = ⟨⟨cur ++ (blankF pos ws ++ G), pos'⟩, b.map tokenOf⟩ ∧
        Reads source pos' b ∧ o = (flag || !L.isEmpty) ∧ (L = [] → G = .nil) ∧
        OpsAgree source G L) := by
  induction fuel with
  | zero => exact ⟨by intros; simp_all [pexpr], by intros; simp_all [ploop]⟩
  | succ fuel ih =>
    obtain ⟨ihe, ihl⟩ := ih
    refine ⟨?_, ?_⟩
    · intro e min cur pos ws b s' hwf hmin hfol hread h
      obtain ⟨hatom, hops, _⟩ := hwf.spine
      have hpieces : e.pieces ++ b = e.atom.pieces ++ (opsPieces e.ops ++ b) := by
        rw [pieces_spine e, List.append_assoc]
      have hskip := skip_blank (cur := cur) (pos := pos) (ws := ws) (noWs_expr e b)
      have hread1 := hread.blank
      rw [hpieces] at h hread1 hskip
      cases hat : e.atom with
      | bin l o ws r =>
        exfalso
        have : ∀ e : Expr, ∀ l o ws r, e.atom ≠ .bin l o ws r := by
          intro e
          induction e with
          | num => simp [Expr.atom]
          | paren => simp [Expr.atom]
          | bin l _ _ _ ih _ => exact ih
        exact this e _ _ _ _ hat
      | num ds w1 =>
        rw [hat] at h hread1 hatom hskip
        obtain ⟨hn, hd, _⟩ := hatom
        simp only [Expr.pieces, List.cons_append] at h hread1 hskip
        obtain ⟨hread2, hget⟩ := hread1.cons
        rw [pexpr_number hskip rfl] at h
        obtain ⟨o, s2, hl, rfl⟩ := finish_some h
        have hbump : (⟨⟨cur ++ blankF pos ws, pos + Text.bytes ws⟩,
            ((Syn.number, ds) :: (blank w1 ++ (opsPieces e.ops ++ b))).map tokenOf⟩ : St).bump
              .number =
            ⟨⟨cur ++ blankF pos ws ++ single (.number, ⟨pos + Text.bytes ws, pos + Text.bytes ws + Text.bytes ds⟩)
              (leaf (.number, ⟨pos + Text.bytes ws, pos + Text.bytes ws + Text.bytes ds⟩)),
              pos + Text.bytes ws + Text.bytes ds⟩, (blank w1 ++ (opsPieces e.ops ++ b)).map tokenOf⟩ := rfl
        rw [hbump] at hl
        obtain ⟨G, pos', rfl, hread3, ho, hnil, hagree⟩ := ihl e.ops 3 min _ _ w1 b false o s2 hops hmin
          hfol hread2 hl
        obtain ⟨G1, y1, k1, e1, hb1, ha1, hf1⟩ := finish_expr (source := source) (e := e)
          (base := cur ++ blankF pos ws) (G := G)
          (G0 := single (Syn.number, ⟨pos + Text.bytes ws, pos + Text.bytes ws + Text.bytes ds⟩)
              (leaf (.number, ⟨pos + Text.bytes ws, pos + Text.bytes ws + Text.bytes ds⟩)) ++
              blankF (pos + Text.bytes ws + Text.bytes ds) w1)
          (pos' := pos') (b := b.map tokenOf) (o := o)
          (y := (.number, ⟨pos + Text.bytes ws, pos + Text.bytes ws + Text.bytes ds⟩))
          (k := leaf (.number, ⟨pos + Text.bytes ws, pos + Text.bytes ws + Text.bytes ds⟩))
          (by simpa using ho) hnil (by rw [branches_append, branches_blankF]; rfl)
          (by rw [hat]; exact agrees_number hget hn hd w1)
          (by rw [hat]; exact ⟨_, _, _, rfl, rfl, rfl⟩) hagree
        refine ⟨G1, y1, k1, pos', ?_, hread3, hb1, ha1, hf1⟩
        simp only [Forest.append_assoc] at e1 ⊢
        rw [← e1]
        simp only [St.width, Forest.append_assoc]
      | paren w0 e' w1 =>
        rw [hat] at h hread1 hatom hskip
        obtain ⟨_, hwf', _⟩ := hatom
        have hp : Expr.pieces (.paren w0 e' w1) ++ (opsPieces e.ops ++ b) =
            (Syn.openParen, ['(']) :: (blank w0 ++ (e'.pieces ++
              ((Syn.closeParen, [')']) :: (blank w1 ++ (opsPieces e.ops ++ b))))) := by
          simp [Expr.pieces]
        rw [hp] at h hread1 hskip
        obtain ⟨hread2, -⟩ := hread1.cons
        have htake : ∀ (L : Lev Syn) (p : Syn × Text) (ps : List (Syn × Text)),
            (⟨L, (p :: ps).map tokenOf⟩ : St).take =
            ⟨⟨L.cur ++ leaf (p.1, ⟨L.pos, L.pos + Text.bytes p.2⟩), L.pos + Text.bytes p.2⟩,
              ps.map tokenOf⟩ := fun _ _ _ => rfl
        obtain ⟨s2, he, h⟩ := pexpr_paren hskip rfl (htake _ _ _) h
        simp only at he h
        have hfol' : Follow 0 ((Syn.closeParen, [')']) :: (blank w1 ++ (opsPieces e.ops ++ b))) := by
          intro p hp
          simp only [List.head?_cons, Option.some.injEq] at hp
          rw [← hp]
          exact ⟨by decide, by simp [op]⟩
        · obtain ⟨G', y', k', pos2, rfl, hread3, hb', ha', hf'⟩ := ihe e' 0 _ _ w0 _ _ hwf'
            (by simp) hfol' hread2 he
          have hne : blankF (pos + Text.bytes ws + Text.bytes ['(']) w0 ++ G' ≠ .nil := by
            obtain ⟨z, kz, r, e0, -⟩ := hf'
            rw [e0]; unfold blankF; split <;> simp [cons_append]
          have hw : ∀ ts, (⟨⟨cur ++ blankF pos ws ++ leaf (Syn.openParen, ⟨pos + Text.bytes ws,
                pos + Text.bytes ws + Text.bytes ['(']⟩) ++
                (blankF (pos + Text.bytes ws + Text.bytes ['(']) w0 ++ G'), pos2⟩, ts⟩ : St).wrap
              (St.width ⟨⟨cur ++ blankF pos ws ++ leaf (Syn.openParen, ⟨pos + Text.bytes ws,
                pos + Text.bytes ws + Text.bytes ['(']⟩), pos + Text.bytes ws + Text.bytes ['(']⟩,
                (blank w0 ++ (e'.pieces ++ ((Syn.closeParen, [')']) ::
                  (blank w1 ++ (opsPieces e.ops ++ b))))).map tokenOf⟩) .group =
              ⟨⟨cur ++ blankF pos ws ++ leaf (Syn.openParen, ⟨pos + Text.bytes ws,
                pos + Text.bytes ws + Text.bytes ['(']⟩) ++
                single (.group, stretchC (blankF (pos + Text.bytes ws + Text.bytes ['(']) w0 ++ G'))
                  (blankF (pos + Text.bytes ws + Text.bytes ['(']) w0 ++ G'), pos2⟩, ts⟩ := by
            intro ts
            exact wrap_new hne
          simp only [hw] at h
          have hsk : ∀ L : Lev Syn, (⟨L, ((Syn.closeParen, [')']) ::
              (blank w1 ++ (opsPieces e.ops ++ b))).map tokenOf⟩ : St).skip = ⟨L, ((Syn.closeParen, [')']) ::
              (blank w1 ++ (opsPieces e.ops ++ b))).map tokenOf⟩ := fun L => skip_of_head (by decide)
          rw [hsk] at h
          have h := h rfl
          rw [htake] at h
          obtain ⟨o, s3, hl, rfl⟩ := finish_some h
          obtain ⟨hread4, -⟩ := hread3.cons
          obtain ⟨G, pos', rfl, hread5, ho, hnil, hagree⟩ := ihl e.ops 3 min _ _ w1 b false o s3 hops
            hmin hfol hread4 hl
          obtain ⟨G1, y1, k1, e1, hb1, ha1, hf1⟩ := finish_expr (source := source) (e := e)
            (base := cur ++ blankF pos ws) (G := G)
            (G0 := leaf (Syn.openParen, ⟨pos + Text.bytes ws,
                pos + Text.bytes ws + Text.bytes ['(']⟩) ++
                (single (.group, stretchC (blankF (pos + Text.bytes ws + Text.bytes ['(']) w0 ++ G'))
                  (blankF (pos + Text.bytes ws + Text.bytes ['(']) w0 ++ G') ++
                (leaf (Syn.closeParen, ⟨pos2, pos2 + Text.bytes [')']⟩) ++
                  blankF (pos2 + Text.bytes [')']) w1)))
            (pos' := pos') (b := b.map tokenOf) (o := o)
            (y := (.group, stretchC (blankF (pos + Text.bytes ws + Text.bytes ['(']) w0 ++ G')))
            (k := blankF (pos + Text.bytes ws + Text.bytes ['(']) w0 ++ G')
            (by simpa using ho) hnil
            (by
              rw [branches_append, branches_append, branches_append, branches_blankF]
              generalize hK : blankF (pos + Text.bytes ws + Text.bytes ['(']) w0 ++ G' = K at hne
              cases K with
              | nil => exact absurd rfl hne
              | cons => rfl)
            (by
              rw [hat]
              obtain ⟨z, kz, r, e0, hz⟩ := hf'
              cases w0 with
              | cons c w0 =>
                have : blankF (pos + Text.bytes ws + Text.bytes ['(']) (c :: w0) ++ G' =
                  .cons (Syn.whitespace, ⟨pos + Text.bytes ws + Text.bytes ['('],
                    pos + Text.bytes ws + Text.bytes ['('] + Text.bytes (c :: w0)⟩) .nil G' := rfl
                rw [this]
                exact agrees_group (agrees_other (Or.inl rfl))
              | nil =>
                rw [blankF_nil, nil_append, e0]
                cases e' with
                | paren a b c =>
                  have hz : z.1 = .openParen := hz
                  have := agrees_other (source := source) (k := kz) (Or.inr hz)
                  rw [hz] at this
                  exact agrees_group this
                | num a b =>
                  obtain ⟨rfl, rfl⟩ : z = y' ∧ kz = k' := hz
                  exact agrees_group ha'
                | bin l o w r =>
                  obtain ⟨rfl, rfl⟩ : z = y' ∧ kz = k' := hz
                  exact agrees_group ha')
            (by rw [hat]; exact ⟨_, _, _, rfl, rfl⟩) hagree
          refine ⟨G1, y1, k1, pos', ?_, hread5, hb1, ha1, hf1⟩
          simp only [Forest.append_assoc] at e1 ⊢
          rw [← e1]
          simp only [St.width, Forest.append_assoc]
    · intro L m min cur pos ws b flag o s' hok hmin hfol hread h
      have hskip := skip_blank (cur := cur) (pos := pos) (ws := ws) (noWs_ops (L := L) hfol.noWs)
      have hread1 := hread.blank
      cases L with
      | nil =>
        simp only [opsPieces, List.nil_append] at h hread1 hskip
        have hstop : o = flag ∧ s' = ⟨⟨cur ++ blankF pos ws, pos + Text.bytes ws⟩, b.map tokenOf⟩ := by
          rw [ploop_stop hskip] at h
          · simp only [Option.some.injEq, Prod.mk.injEq] at h
            exact ⟨h.1.symm, h.2.symm⟩
          · cases b with
            | nil => intro l r h'; simp [St.head, op] at h'
            | cons p b => exact (hfol p rfl).2
        obtain ⟨rfl, rfl⟩ := hstop
        exact ⟨.nil, pos + Text.bytes ws, by simp, hread1, by simp, fun _ => rfl, opsAgree_nil source⟩
      | cons x L =>
        obtain ⟨ob, w, r⟩ := x
        obtain ⟨_, hrwf, hrl, hok'⟩ := hok
        have hp : opsPieces ((ob, w, r) :: L) ++ b =
            (ob.syn, [ob.char]) :: (blank w ++ (r.pieces ++ (opsPieces L ++ b))) := by
          simp [opsPieces]
        rw [hp] at h hread1 hskip
        obtain ⟨hread2, -⟩ := hread1.cons
        have hm := hmin (ob, w, r) (by simp)
        simp only at hm
        obtain ⟨s2, he, h⟩ := ploop_op hskip (op_syn ob) hm h
        have hbump : (⟨⟨cur ++ blankF pos ws, pos + Text.bytes ws⟩,
            ((ob.syn, [ob.char]) :: (blank w ++ (r.pieces ++ (opsPieces L ++ b)))).map tokenOf⟩ : St).bump
              .operator =
            ⟨⟨cur ++ blankF pos ws ++ single (.operator, ⟨pos + Text.bytes ws, pos + Text.bytes ws + Text.bytes [ob.char]⟩)
              (leaf (ob.syn, ⟨pos + Text.bytes ws, pos + Text.bytes ws + Text.bytes [ob.char]⟩)),
              pos + Text.bytes ws + Text.bytes [ob.char]⟩,
              (blank w ++ (r.pieces ++ (opsPieces L ++ b))).map tokenOf⟩ := rfl
        rw [hbump] at he
        have hfol' : Follow ob.right (opsPieces L ++ b) := by
          have hr := right_eq ob
          cases L with
          | nil =>
            intro p hp
            obtain ⟨g1, g2⟩ := hfol p hp
            exact ⟨g1, fun l r' e => by have := g2 l r' e; omega⟩
          | cons x L =>
            obtain ⟨o2, w2, r2⟩ := x
            intro p hp
            simp only [opsPieces, List.cons_append, List.head?_cons, Option.some.injEq] at hp
            rw [← hp]
            refine ⟨syn_ne o2, fun l r' e => ?_⟩
            rw [op_syn] at e
            simp only [Option.some.injEq, Prod.mk.injEq] at e
            have := left_mono hok'.1
            omega
        · obtain ⟨Gr, y, k, pos2, rfl, hread3, hb, ha, hf⟩ := ihe r ob.right _ _ w _ _ hrwf
            (fun x hx => left_lt (Nat.lt_of_lt_of_le hrl (hrwf.spine.2.2 x hx))) hfol' hread2 he
          obtain ⟨G, pos', rfl, hread4, ho, hnil, hagree⟩ := ihl L ob.level min _ _ [] b true o s' hok'
            (fun x hx => hmin x (by simp [hx])) hfol hread3 h
          refine ⟨_, pos', ?_, hread4, by simpa using ho, by simp, opsAgree_cons (ws := w)
            (sp := ⟨pos + Text.bytes ws, pos + Text.bytes ws + Text.bytes [ob.char]⟩)
            (x := (.operator, ⟨pos + Text.bytes ws, pos + Text.bytes ws + Text.bytes [ob.char]⟩))
            (branches_blankF (pos + Text.bytes ws + Text.bytes [ob.char]) w) hb ha hagree⟩
          simp only [Forest.append_assoc, blankF_nil, nil_append]

end Syntree.Calc
