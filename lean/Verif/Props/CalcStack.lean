import Verif.Spec.CalcStack
import Verif.Proof.CalcReach
import Verif.Props.CalcError
import Verif.Proof.Made

/-!
# The stack of the calculator (C99)

`parseIn d` and `evalIn d` are the parser and the evaluator with a stack of `d` frames for the
function that calls itself (`expr`, `eval_node`).
-/

namespace Syntree.Calc

open Forest

/-! ## C99 -/

/-- C99, the parser: for every text, four frames of `expr`, and four more for each opening
parenthesis of the text, are enough: the parser does exactly what it does with an unbounded stack. -/
theorem C99_parser_frames {d : Nat} {source : Text} (h : 4 * (source.count '(' + 1) ≤ d) :
    parseIn d source = parse source := parse_enough h

/-- However long a text without parentheses is, four frames will do; three do not. -/
example (n : Nat) : parseIn 4 (List.replicate n ['1', '+']).flatten =
    parse (List.replicate n ['1', '+']).flatten := by
  apply C99_parser_frames
  have : ((List.replicate n ['1', '+']).flatten).count '(' = 0 := by
    rw [List.count_eq_zero]; simp
  omega

theorem parse_shape {source : Text} (hb : Text.bytes source < 2 ^ 32) : ∃ t ops F,
    parse source = .ok t ∧ Built Flavor.default ops t F ∧
      tall F.content ≤ 4 * (source.count '(' + 1) ∧
      nested F.content ≤ 3 * (source.count '(' + 1) := by
  obtain ⟨ps, hp⟩ := Lexed.total source
  obtain ⟨t, ops, F, h1, h2, _, _, _, s', h0, h3⟩ := parse_full hp hb
  obtain ⟨ho, hn⟩ := hp.opens
  obtain ⟨G, u, hx, ht, hg⟩ := proot_tall _ _ _ hn h0
  have hc : F.content = G := by rw [h3, hx.cur]; rfl
  have hu : opensOf u ≤ source.count '(' := by
    have := hx.toks
    simp only at this
    rw [this, opensOf_append] at ho
    omega
  exact ⟨t, ops, F, h1, h2, by rw [hc]; omega, by rw [hc]; omega⟩

theorem tall_map {β γ : Type} (f : β → γ) (F : Forest β) : tall (F.map f) = tall F := by
  induction F with
  | nil => rfl
  | cons x k r ihk ihr =>
    cases k with
    | nil => simpa [Forest.map, tall] using ihr
    | cons y k k' => simp only [Forest.map, tall] at ihk ihr ⊢; rw [ihk, ihr]

/-- C99, the tree: no node has more ancestors than four, and four for each opening parenthesis. -/
theorem C99_ancestors {source : Text} {t : Tree Syn} {ops : List (Op Syn)} {F : Forest (Lab Syn)}
    (hb : Text.bytes source < 2 ^ 32) (hp : parse source = .ok t) (hF : Built Flavor.default ops t F)
    {anc : List (Lab Syn)} {left kids right : Forest (Lab Syn)} {x : Lab Syn}
    (hl : Loc F anc left x kids right) : anc.length ≤ 4 * (source.count '(' + 1) := by
  obtain ⟨t', ops', F', h1, h2, h3, _⟩ := parse_shape hb
  obtain rfl : t' = t := by rw [h1] at hp; simpa using hp
  obtain rfl := Represents.listing_unique hF.represents (Represents.listing h2.represents)
  have := loc_tall hl
  have e : tall F.content = tall F := tall_map _ _
  omega

/-- C99, the evaluator: four frames of `eval_node`, and three more for each opening parenthesis of
the text, are enough. -/
theorem C99_evaluator_frames {d : Nat} {source : Text} {t : Tree Syn}
    (hb : Text.bytes source < 2 ^ 32) (hp : parse source = .ok t)
    (h : 3 * (source.count '(' + 1) + 1 ≤ d) : evalIn d t source = eval t source := by
  obtain ⟨t', ops', F', h1, h2, _, h4⟩ := parse_shape hb
  obtain rfl : t' = t := by rw [h1] at hp; simpa using hp
  exact eval_enough h2.represents source (by omega)

/-- The text, the tree and the results with `d` frames for the evaluator. -/
def runIn (d : Nat) (source : Text) : Option (List EvalRes) :=
  match parse source with
  | .error _ => none
  | .ok t => evalIn d t source

/-- With one parenthesis: seven frames do, six do not. -/
example : runIn 7 (parens 1) = some [some (.ok 2)] ∧ runIn 6 (parens 1) = some [none] := by
  decide +kernel

/-- Without parentheses: four frames do, three do not, and no node has more than four ancestors. -/
example : runIn 4 (parens 0) = some [some (.ok 2)] ∧ runIn 3 (parens 0) = some [none] := by
  decide +kernel

example {t : Tree Syn} {ops : List (Op Syn)} {F : Forest (Lab Syn)}
    (hp : parse "1 + 2*3 - 4^5^6".toList = .ok t) (hF : Built Flavor.default ops t F)
    {anc : List (Lab Syn)} {left kids right : Forest (Lab Syn)} {x : Lab Syn}
    (hl : Loc F anc left x kids right) : anc.length ≤ 4 :=
  C99_ancestors (source := "1 + 2*3 - 4^5^6".toList) (by decide) hp hF hl

/-! ### The bounds are reached -/

def parensPieces : Nat → List (Syn × Text)
  | 0 => [(.number, ['1']), (.plus, ['+']), (.number, ['1']), (.mul, ['*']), (.number, ['1']),
      (.pow, ['^']), (.number, ['1'])]
  | n + 1 => [(.number, ['1']), (.plus, ['+']), (.number, ['1']), (.mul, ['*']), (.number, ['1']),
      (.pow, ['^']), (.openParen, ['('])] ++ parensPieces n ++ [(.closeParen, [')'])]

theorem lexed_one {rest : Text} {ps : List (Syn × Text)} (hs : Stops isDigit rest)
    (h : Lexed rest ps) : Lexed ('1' :: rest) ((.number, ['1']) :: ps) :=
  .number (c := '1') (run := []) (by simp; decide) hs h

theorem stops_symbol {c : Char} {cs : Text} (h : isDigit c = false) : Stops isDigit (c :: cs) := by
  intro x hx; simp at hx; rw [← hx]; exact h

theorem lexed_parens (n : Nat) : ∀ {rest : Text} {ps : List (Syn × Text)}, Stops isDigit rest →
    Lexed rest ps → Lexed (parens n ++ rest) (parensPieces n ++ ps) := by
  induction n with
  | zero =>
    intro rest ps hs h
    exact lexed_one (stops_symbol (by decide)) (.symbol rfl (lexed_one (stops_symbol (by decide))
      (.symbol rfl (lexed_one (stops_symbol (by decide)) (.symbol rfl (lexed_one hs h))))))
  | succ n ih =>
    intro rest ps hs h
    have := ih (rest := ')' :: rest) (ps := (.closeParen, [')']) :: ps)
      (stops_symbol (by decide)) (.symbol rfl h)
    have e1 : parens (n + 1) ++ rest = ['1', '+', '1', '*', '1', '^', '('] ++ (parens n ++ (')' :: rest)) := by
      simp [parens]
    have e2 : parensPieces (n + 1) ++ ps = [(.number, ['1']), (.plus, ['+']), (.number, ['1']),
      (.mul, ['*']), (.number, ['1']), (.pow, ['^']), (.openParen, ['('])] ++
        (parensPieces n ++ ((.closeParen, [')']) :: ps)) := by simp [parensPieces]
    rw [e1, e2]
    exact lexed_one (stops_symbol (by decide)) (.symbol rfl (lexed_one (stops_symbol (by decide))
      (.symbol rfl (lexed_one (stops_symbol (by decide)) (.symbol rfl (.symbol rfl this))))))

theorem count_parens (n : Nat) : (parens n).count '(' = n := by
  induction n with
  | zero => decide
  | succ n ih =>
    rw [parens, List.count_append, List.count_append, ih]
    have h1 : ['1', '+', '1', '*', '1', '^', '('].count '(' = 1 := by decide
    have h2 : [')'].count '(' = 0 := by decide
    omega

theorem dead_parens (n : Nat) : ∀ ts : List Token,
    Dead (4 * n + 3) 0 ((parensPieces n).map tokenOf ++ ts) := by
  induction n with
  | zero =>
    intro ts
    exact Dead.operator (Dead.operator (Dead.operator (Dead.zero 8 _) rfl (by decide)) rfl
      (by decide)) rfl (by decide)
  | succ n ih =>
    intro ts
    have e : (parensPieces (n + 1)).map tokenOf ++ ts = ([(.number, ['1']), (.plus, ['+']),
      (.number, ['1']), (.mul, ['*']), (.number, ['1']), (.pow, ['^']), (.openParen, ['('])] :
        List (Syn × Text)).map tokenOf ++ ((parensPieces n).map tokenOf ++
          (tokenOf (.closeParen, [')']) :: ts)) := by simp [parensPieces]
    rw [e, show 4 * (n + 1) + 3 = 4 * n + 3 + 1 + 1 + 1 + 1 by omega]
    exact Dead.operator (Dead.operator (Dead.operator (Dead.paren (ih _)) rfl (by decide)) rfl
      (by decide)) rfl (by decide)

/-- C99, the bound of the parser is reached: for every `n` there is a text with `n` opening
parentheses for which one frame less is too little. -/
theorem C99_parser_sharp (n : Nat) : (parens n).count '(' = n ∧
    ∃ e, parseIn (4 * (n + 1) - 1) (parens n) = .error e := by
  refine ⟨count_parens n, ?_⟩
  have hl := lexed_parens n (rest := []) (ps := []) (by simp [Stops]) .nil
  rw [List.append_nil, List.append_nil] at hl
  have hy := Lexer.At.yields _ (Lexer.At.new (parens n)) hl
  have hd := dead_parens n []
  rw [List.append_nil] at hd
  unfold parseIn
  cases hr : rootLoopIn (4 * (n + 1) - 1) ((parens n).length + 1) (Parser.new (parens n)) with
  | error e => exact ⟨e, rfl⟩
  | ok r =>
    obtain ⟨u, p⟩ := r
    rw [rootLoopIn] at hr
    obtain ⟨a, q, h1, _⟩ := bind_inv hr
    rw [show 4 * (n + 1) - 1 = 4 * n + 3 by omega] at h1
    exact absurd h1 (hd _ _ _ _ (Or.inl ⟨rfl, hy⟩))

/-- With one parenthesis: eight frames do, seven do not. -/
example : parens 1 = "1+1*1^(1+1*1^1)".toList ∧ (∃ t, parseIn 8 (parens 1) = .ok t) ∧
    ∃ e, parseIn 7 (parens 1) = .error e := by
  refine ⟨by decide, ?_, (C99_parser_sharp 1).2⟩
  rw [C99_parser_frames (by decide)]
  obtain ⟨ps, hp⟩ := Lexed.total (parens 1)
  obtain ⟨t, _, _, h, _⟩ := C53_parse hp (by decide)
  exact ⟨t, h⟩

theorem makes_parens (n : Nat) : ∀ ts : List Token,
    Makes (4 * n + 4) (3 * n + 3) 0 ((parensPieces n).map tokenOf ++ ts) := by
  induction n with
  | zero =>
    intro ts
    exact Makes.operator (Makes.operator (Makes.operator (Makes.number (min := 8)) rfl (by decide))
      rfl (by decide)) rfl (by decide)
  | succ n ih =>
    intro ts
    have e : (parensPieces (n + 1)).map tokenOf ++ ts = ([(.number, ['1']), (.plus, ['+']),
      (.number, ['1']), (.mul, ['*']), (.number, ['1']), (.pow, ['^']), (.openParen, ['('])] :
        List (Syn × Text)).map tokenOf ++ ((parensPieces n).map tokenOf ++
          (tokenOf (.closeParen, [')']) :: ts)) := by simp [parensPieces]
    rw [e, show 4 * (n + 1) + 4 = 4 * n + 4 + 1 + 1 + 1 + 1 by omega,
      show 3 * (n + 1) + 3 = 3 * n + 3 + 1 + 1 + 1 by omega]
    exact Makes.operator (Makes.operator (Makes.operator (Makes.paren (ih _) (by omega)) rfl
      (by decide)) rfl (by decide)) rfl (by decide)

/-- C99, the bound of the tree is reached: for every `n` (as long as the text fits) a node of the tree
for `parens n` has that many ancestors. -/
theorem C99_ancestors_sharp (n : Nat) (hb : Text.bytes (parens n) < 2 ^ 32) : ∃ t ops F,
    parse (parens n) = .ok t ∧ Built Flavor.default ops t F ∧
    ∃ anc left x kids right, Loc F anc left x kids right ∧ anc.length = 4 * (n + 1) := by
  have hl := lexed_parens n (rest := []) (ps := []) (by simp [Stops]) .nil
  rw [List.append_nil, List.append_nil] at hl
  obtain ⟨t, ops, F, h1, h2, _, _, _, s', h0, h3⟩ := parse_full hl hb
  refine ⟨t, ops, F, h1, h2, ?_⟩
  have up : ∀ {anc left x kids right}, Loc F anc left x kids right →
      anc.length ≤ 4 * (n + 1) := by
    intro anc left x kids right h
    have := C99_ancestors hb h1 h2 h
    rwa [count_parens] at this
  have low : 4 * (n + 1) ≤ tall F := by
    unfold proot at h0
    split at h0
    · simp at h0
    · rename_i s1 e1
      have hm := makes_parens n []
      rw [List.append_nil] at hm
      obtain ⟨G, u, hx, a, _⟩ := hm _ _ _ rfl e1
      have hc : ∃ H, s'.lev.cur = s1.lev.cur ++ H := by
        obtain ⟨G1, u1, x1, _⟩ := Ext.skip s1
        split at h0
        · simp only [Option.some.injEq] at h0
          subst h0
          exact ⟨_, x1.cur⟩
        · obtain ⟨G2, u2, x2⟩ := Ext.padv s1.skip.lev s1.skip.toks
          have x3 := x1.trans (Ext.wrap (s := s1.skip) x2 .error)
          obtain ⟨G4, u4, x4, _⟩ := proot_tall _ _ _ (NoOps.ext (hl.opens.2) (hx.trans x3)) h0
          exact ⟨_, (x3.trans x4).cur⟩
      obtain ⟨H, hH⟩ := hc
      have e : tall F.content = tall F := tall_map _ _
      rw [← e, h3, hH, hx.cur, tall_append, tall_append]
      omega
  obtain ⟨anc, left, kids, right, x, hloc, hlen⟩ := tall_loc (F := F) (by omega)
  have := up hloc
  exact ⟨anc, left, x, kids, right, hloc, by omega⟩

example : ∃ t ops F, parse (parens 2) = .ok t ∧ Built Flavor.default ops t F ∧
    ∃ anc left x kids right, Loc F anc left x kids right ∧ anc.length = 12 :=
  C99_ancestors_sharp 2 (by decide)

theorem reaches_parens (n : Nat) : ∀ ts : List Token,
    Reaches (3 * n + 3) 0 ((parensPieces n).map tokenOf ++ ts) True := by
  induction n with
  | zero =>
    intro ts
    exact Reaches.operator (Reaches.operator (Reaches.operator (Reaches.number (min := 8)) rfl
      (by decide)) rfl (by decide)) rfl (by decide)
  | succ n ih =>
    intro ts
    have e : (parensPieces (n + 1)).map tokenOf ++ ts = ([(.number, ['1']), (.plus, ['+']),
      (.number, ['1']), (.mul, ['*']), (.number, ['1']), (.pow, ['^']), (.openParen, ['('])] :
        List (Syn × Text)).map tokenOf ++ ((parensPieces n).map tokenOf ++
          (tokenOf (.closeParen, [')']) :: ts)) := by simp [parensPieces]
    rw [e, show 3 * (n + 1) + 3 = 3 * n + 3 + 1 + 1 + 1 by omega]
    exact Reaches.operator (Reaches.operator (Reaches.operator (Reaches.paren (ih _)) rfl
      (by decide)) rfl (by decide)) rfl (by decide)

/-- `1+1*1^e`. -/
def onTop (e : Expr) : Expr :=
  .bin (.num ['1'] []) .add [] (.bin (.num ['1'] []) .mul [] (.bin (.num ['1'] []) .pow [] e))

/-- `parens n` as an expression. -/
def parensExpr : Nat → Expr
  | 0 => onTop (.num ['1'] [])
  | n + 1 => onTop (.paren [] (parensExpr n) [])

theorem parensExpr_facts (n : Nat) : (parensExpr n).WF ∧ (parensExpr n).text = parens n ∧
    (parensExpr n).computed = .ok 2 ∧ ∀ a b c, parensExpr n ≠ .paren a b c := by
  induction n with
  | zero =>
    refine ⟨?_, rfl, ?_, by intro a b c h; simp [parensExpr, onTop] at h⟩
    · simp [parensExpr, onTop, Expr.WF, Expr.level, Bin.level]; decide
    · simp [parensExpr, onTop, Expr.computed, Bin.apply, inI64, decimal]
  | succ n ih =>
    obtain ⟨h1, h2, h3, h4⟩ := ih
    refine ⟨?_, ?_, ?_, by intro a b c h; simp [parensExpr, onTop] at h⟩
    · simp [parensExpr, onTop, Expr.WF, Expr.level, Bin.level, h1]; decide
    · simp [parensExpr, onTop, Expr.text, parens, h2, Bin.char]
    · have : (Expr.paren [] (parensExpr n) []).computed = .ok 2 := by
        rw [← h3]
        cases hp : parensExpr n with
        | paren a b c => exact absurd hp (h4 a b c)
        | num => rfl
        | bin => rfl
      simp [parensExpr, onTop, Expr.computed, this, Bin.apply, inI64, decimal]

/-- C99, the bound of the evaluator is reached: for every `n` (as long as the text fits) `parens n`
has the value two, and with one frame less than the bound the evaluator does not come back. -/
theorem C99_evaluator_sharp (n : Nat) (hb : Text.bytes (parens n) < 2 ^ 32) : ∃ t,
    parse (parens n) = .ok t ∧ eval t (parens n) = some [some (.ok 2)] ∧
    evalIn (3 * (n + 1)) t (parens n) = some [none] := by
  obtain ⟨w1, w2, w3, _⟩ := parensExpr_facts n
  have hl := lexed_parens n (rest := []) (ps := []) (by simp [Stops]) .nil
  rw [List.append_nil, List.append_nil] at hl
  obtain ⟨t, ops, F, h1, h2, _, _, _, s', h0, h3⟩ := parse_full hl hb
  obtain ⟨r, hr, hk⟩ := C54_exact (ws := []) (e := parensExpr n) (by simp) w1
    (by rw [List.nil_append, w2]; exact hb)
  rw [List.nil_append, w2] at hr
  have hev : eval t (parens n) = some [some (.ok 2)] := by
    simp only [run, h1, Except.ok.injEq] at hr
    rw [hr]
    rw [w3] at hk
    cases r with
    | ok v => simp [kindOf] at hk; rw [hk]
    | error e => simp [kindOf] at hk
  refine ⟨t, h1, hev, ?_⟩
  have hrep := h2.represents
  have hy := skip_roots hrep
  have hlen : ((branches F).map (·.1.id)).length < t.nodes.length + 1 := by
    have h1 : ∀ G : Forest (Lab Syn), (branches G).length ≤ G.size := by
      intro G
      induction G with
      | nil => simp [branches]
      | cons x k r _ ih =>
        cases k with
        | nil => simp only [branches, Forest.size]; omega
        | cons y k k' => simp only [branches, Forest.size, List.length_cons]; omega
    have := h1 F
    have := hrep.size
    simp only [List.length_map]
    omega
  unfold eval at hev
  unfold evalIn
  rw [forLoop_of_yields hy _ hlen] at hev ⊢
  have hpath : ∃ x k rs, branches F.content = (x, k) :: rs ∧ Path (3 * n + 3) x k := by
    unfold proot at h0
    split at h0
    · simp at h0
    · rename_i s1 e1
      have hm := reaches_parens n []
      rw [List.append_nil] at hm
      obtain ⟨G, u, x, k, rs, hx, hbr, hpt, _⟩ := hm _ _ _ rfl e1
      have hc : ∃ H, s'.lev.cur = s1.lev.cur ++ H := by
        obtain ⟨G1, u1, x1, _⟩ := Ext.skip s1
        split at h0
        · simp only [Option.some.injEq] at h0
          subst h0
          exact ⟨_, x1.cur⟩
        · obtain ⟨G2, u2, x2⟩ := Ext.padv s1.skip.lev s1.skip.toks
          have x3 := x1.trans (Ext.wrap (s := s1.skip) x2 .error)
          obtain ⟨G4, u4, x4, _⟩ := proot_tall _ _ _ (NoOps.ext (hl.opens.2) (hx.trans x3)) h0
          exact ⟨_, (x3.trans x4).cur⟩
      obtain ⟨H, hH⟩ := hc
      refine ⟨x, k, rs ++ branches H, ?_, hpt⟩
      rw [h3, hH, hx.cur, branches_append, branches_append, hbr]
      rfl
  obtain ⟨x, k, rs, hbr, hpt⟩ := hpath
  rw [branches_content] at hbr
  rcases hbF : branches F with _ | ⟨p, _ | ⟨p1, ps⟩⟩
  · rw [hbF] at hbr; simp at hbr
  · rw [hbF] at hbr hev
    simp only [List.map_cons, List.map_nil, List.cons.injEq, contentOf, Prod.mk.injEq,
      Option.some.injEq, and_true] at hbr hev ⊢
    obtain ⟨l, r', e⟩ := branches_loc p (by rw [hbF]; simp)
    exact path_dead hrep _ hpt _ _ (Loc.root e) hbr.1.1.symm hbr.1.2.symm (by omega) hev
  · rw [hbF] at hev; simp at hev

example : ∃ t, parse (parens 3) = .ok t ∧ eval t (parens 3) = some [some (.ok 2)] ∧
    evalIn 12 t (parens 3) = some [none] := C99_evaluator_sharp 3 (by decide)

end Syntree.Calc
