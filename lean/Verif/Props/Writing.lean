import Verif.Proof.Writing
import Verif.Props.Macro

/-!
# C95: printing to a writer that may fail

`t.printTo limit cut write … o` is `print`, or `print_with_source`, to the writer `write` in state
`o`. `limit` is the largest width that `core::fmt` accepts; `cut` says in which pieces a line is
handed to the writer. `Written`, `Outline`: `Spec/Writing.lean`.
-/

namespace Syntree

variable {α ω ε : Type} {t : Tree α} {limit : Nat} {cut : Nat → String → List String}
  {showIndex : Nat → String} {debugData : α → String} {debugStr : String → String}
  {source : Span → Option String}

/-- C95: on every tree a program can get hold of, and with every writer. There are lines, one for
every node in the order of the walk, with the text that `print` writes (C46, C67), and the writer is
handed their pieces in this order: up to the first call that fails, whose error is returned; or up to
the first line whose node is so deep that twice the depth is not an accepted width, where `print`
panics; otherwise all of them, and `Ok` is returned. -/
theorem C95_print_to (h : Obtained t) (hcut : ∀ n s, String.join (cut n s) = s) :
    ∃ lines : List Outline,
      t.printWithLookup showIndex debugData debugStr source =
        some (lines.map fun x => String.join x.pieces) ∧
      t.listing.map (·.map (·.1)) = some (lines.map (·.depth)) ∧
      ∀ {ω ε : Type} (write : ω → String → ω × Except ε Unit) (o : ω),
        ∃ r, Written write o ((lines.takeWhile (Outline.fits limit)).flatMap (·.pieces))
            (t.printTo limit cut write showIndex debugData debugStr source o).1 r ∧
          (t.printTo limit cut write showIndex debugData debugStr source o).2 =
            match r with
            | some e => .err e
            | none => if lines.all (Outline.fits limit) then .ok else .panic := by
  obtain ⟨l, h1, h2, h3⟩ := h.depth_walk
  have hd := C75_tree_depths h h1
  refine ⟨l.map fun p => ⟨p.1, cut p.2 (printLine showIndex debugData debugStr source t.nodes p)⟩,
    ?_, ?_, ?_⟩
  · rw [List.map_map]
    have e : ((fun x : Outline => String.join x.pieces) ∘ fun p : Int × Nat =>
        (⟨p.1, cut p.2 (printLine showIndex debugData debugStr source t.nodes p)⟩ : Outline)) =
        printLine showIndex debugData debugStr source t.nodes := by
      funext p; exact hcut _ _
    rw [e]
    exact forLoop_of_yields h1 _ (Nat.lt_succ_of_le h2)
  · rw [Tree.listing, forLoop_of_yields h1 (t.len + 1) (Nat.lt_succ_of_le h2)]
    simp
  · intro ω ε write o
    obtain ⟨r, g1, g2⟩ := printLoop_of_yields (limit := limit) (cut := cut) (write := write)
      (line := printLine showIndex debugData debugStr source t.nodes) h1 (fun p hp => (hd p hp).1)
      (t.nodes.length + 1) o (Nat.lt_succ_of_le h2)
    refine ⟨r, g1, ?_⟩
    rw [Tree.printTo, g2]
    cases r <;> rfl

/-- C95: the writing is determined: which calls are made, the state of the writer after them, and the
error. -/
theorem C95_determined (write : ω → String → ω × Except ε Unit) (o : ω) (l : List String) :
    ∃ o' r, Written write o l o' r ∧ ∀ o2 r2, Written write o l o2 r2 → o2 = o' ∧ r2 = r :=
  ⟨_, _, written_pieces write l o, fun _ _ h => h.det (written_pieces write l o)⟩

/-- C95: if the tree has not more than `limit / 2 + 1` nodes, `print` does not panic: it returns `Ok`
if no call of the writer failed, and otherwise the error of the only one that did. -/
theorem C95_small_trees (h : Obtained t) (hcut : ∀ n s, String.join (cut n s) = s)
    (hs : t.len ≤ limit / 2 + 1) :
    ∃ pieces : List (List String),
      t.printWithLookup showIndex debugData debugStr source = some (pieces.map String.join) ∧
      ∀ {ω ε : Type} (write : ω → String → ω × Except ε Unit) (o : ω),
        ∃ r, Written write o pieces.flatten
            (t.printTo limit cut write showIndex debugData debugStr source o).1 r ∧
          (t.printTo limit cut write showIndex debugData debugStr source o).2 =
            match r with
            | some e => .err e
            | none => .ok := by
  obtain ⟨lines, h1, h2, h3⟩ := C95_print_to (limit := limit) (showIndex := showIndex)
    (debugData := debugData) (debugStr := debugStr) (source := source) h hcut
  have hall : ∀ x ∈ lines, Outline.fits limit x = true := by
    intro x hx
    obtain ⟨l, g1, g2, g3⟩ := h.depth_walk
    rw [Tree.listing, forLoop_of_yields g1 (t.len + 1) (Nat.lt_succ_of_le g2)] at h2
    simp only [Option.map_some, Option.some.injEq, List.map_map] at h2
    have : x.depth ∈ lines.map (·.depth) := List.mem_map_of_mem hx
    rw [← h2, List.mem_map] at this
    obtain ⟨p, hp, e⟩ := this
    have b := C75_tree_depths h g1 p hp
    simp only [Function.comp_apply] at e
    refine decide_eq_true ?_
    omega
  refine ⟨lines.map (·.pieces), by rw [h1, List.map_map]; rfl, ?_⟩
  intro ω ε write o
  obtain ⟨r, g1, g2⟩ := h3 write o
  have htw : lines.takeWhile (Outline.fits limit) = lines := by
    clear h1 h2 h3 g1 g2
    induction lines with
    | nil => rfl
    | cons x l ih =>
      rw [List.takeWhile_cons, hall x (by simp), if_pos rfl, ih (fun y hy => hall y (by simp [hy]))]
  rw [htw] at g1
  refine ⟨r, by rw [← List.flatMap_def]; exact g1, ?_⟩
  rw [g2, if_pos (List.all_eq_true.2 hall)]

/-- C95: printed to a `Vec<u8>`, the text is appended in UTF-8 to what is there, and the result is
`Ok`, however the lines are cut. -/
theorem C95_to_vec (h : Obtained t) (hcut : ∀ n s, String.join (cut n s) = s)
    (hs : t.len ≤ limit / 2 + 1) :
    ∃ text, t.printWithLookup showIndex debugData debugStr source = some text ∧
      ∀ o, t.printTo (ε := ε) limit cut vecWrite showIndex debugData debugStr source o =
        (o ++ utf8 (String.join text), .ok) := by
  obtain ⟨pieces, h1, h2⟩ := C95_small_trees (limit := limit) (showIndex := showIndex)
    (debugData := debugData) (debugStr := debugStr) (source := source) h hcut hs
  refine ⟨_, h1, ?_⟩
  intro o
  obtain ⟨r, g1, g2⟩ := h2 (vecWrite (ε := ε)) o
  obtain ⟨e1, e2⟩ := g1.det (written_vec (ε := ε) pieces.flatten o)
  subst e2
  refine Prod.ext ?_ g2
  rw [e1]
  congr 1
  rw [utf8_join, List.flatMap_map, List.flatten_eq_flatMap, List.flatMap_assoc]
  congr 1
  funext l
  exact (utf8_join l).symm

/-- C95: printed to a buffer with room for `n` bytes, the first `n` bytes of the text are in it
afterwards (all, if there are fewer), and the result is `Ok` exactly if the text fits, however the
lines are cut. -/
theorem C95_to_buffer (h : Obtained t) (hcut : ∀ n s, String.join (cut n s) = s)
    (hs : t.len ≤ limit / 2 + 1) :
    ∃ text, t.printWithLookup showIndex debugData debugStr source = some text ∧
      ∀ n, (t.printTo limit cut bufferWrite showIndex debugData debugStr source ⟨[], n⟩).1.held =
          (utf8 (String.join text)).take n ∧
        (t.printTo limit cut bufferWrite showIndex debugData debugStr source ⟨[], n⟩).2 =
          if (utf8 (String.join text)).length ≤ n then .ok else .err () := by
  obtain ⟨pieces, h1, h2⟩ := C95_small_trees (limit := limit) (showIndex := showIndex)
    (debugData := debugData) (debugStr := debugStr) (source := source) h hcut hs
  have hb : utf8 (String.join (pieces.map String.join)) = pieces.flatten.flatMap utf8 := by
    rw [utf8_join, List.flatMap_map, List.flatten_eq_flatMap, List.flatMap_assoc]
    congr 1
    funext l
    exact utf8_join l
  refine ⟨_, h1, ?_⟩
  intro n
  rw [hb]
  obtain ⟨r, g1, g2⟩ := h2 bufferWrite ⟨[], n⟩
  obtain ⟨o', e1, e2⟩ := written_buffer pieces.flatten ⟨[], n⟩
  obtain ⟨k1, k2⟩ := g1.det e2
  refine ⟨by rw [k1, e1]; rfl, ?_⟩
  rw [g2, k2]
  dsimp only
  by_cases hc : (pieces.flatten.flatMap utf8).length ≤ n
  · rw [if_pos hc, if_pos hc]
  · rw [if_neg hc, if_neg hc]

/-- C95: for trees that are nested lists: printed to a `Vec<u8>` (whose calls do not fail), the lines
before the first node that is too deep are there afterwards; `print` panics exactly if there is such
a node. -/
theorem C95_depth {fl : Flavor} {F : Forest (Lab α)} (h : Made fl t F)
    (hcut : ∀ n s, String.join (cut n s) = s) :
    ∃ text, t.printWithLookup showIndex debugData debugStr source = some text ∧
      text.length = (F.depths 0).length ∧
      ∀ o, t.printTo (ε := ε) limit cut vecWrite showIndex debugData debugStr source o =
        (o ++ utf8 (String.join
            (text.take ((F.depths 0).takeWhile fun p => decide (2 * p.1 ≤ limit)).length)),
          if ∃ p ∈ F.depths 0, limit < 2 * p.1 then .panic else .ok) := by
  obtain ⟨lines, h1, h2, h3⟩ := C95_print_to (limit := limit) (showIndex := showIndex)
    (debugData := debugData) (debugStr := debugStr) (source := source) h.obtained hcut
  rw [h.represents.listing] at h2
  simp only [Option.map_some, Option.some.injEq, Forest.listing, List.map_map] at h2
  have hd : lines.map (·.depth) = (F.depths 0).map fun p => (p.1 : Int) := by rw [← h2]; rfl
  have hlen : lines.length = (F.depths 0).length := by
    have := congrArg List.length hd; simpa using this
  have htake : ∀ (lines : List Outline) (ps : List (Nat × Lab α)),
      lines.map (·.depth) = ps.map (fun p => (p.1 : Int)) →
      lines.takeWhile (Outline.fits limit) =
        lines.take (ps.takeWhile fun p => decide (2 * p.1 ≤ limit)).length ∧
      (lines.all (Outline.fits limit) = true ↔ ¬ ∃ p ∈ ps, limit < 2 * p.1) := by
    intro lines
    induction lines with
    | nil =>
      intro ps e
      cases ps with
      | nil => simp
      | cons _ _ => simp at e
    | cons x l ih =>
      intro ps e
      cases ps with
      | nil => simp at e
      | cons p ps =>
        simp only [List.map_cons, List.cons.injEq] at e
        obtain ⟨i1, i2⟩ := ih ps e.2
        by_cases hx : 2 * p.1 ≤ limit
        · have hf : Outline.fits limit x = true := decide_eq_true (by rw [e.1]; omega)
          refine ⟨by simp [hf, hx, i1], ?_⟩
          rw [List.all_cons, hf, Bool.true_and, i2]
          simp only [List.mem_cons, exists_eq_or_imp]
          constructor
          · intro k k'; exact k (k'.resolve_left (by omega))
          · intro k k'; exact k (.inr k')
        · have hf : Outline.fits limit x = false := decide_eq_false (by rw [e.1]; omega)
          refine ⟨by simp [hf, hx], ?_⟩
          rw [List.all_cons, hf]
          simp only [Bool.false_and, Bool.false_eq_true, false_iff]
          exact fun k => k ⟨p, by simp, by omega⟩
  obtain ⟨k1, k2⟩ := htake lines _ hd
  refine ⟨_, h1, by simpa using hlen, ?_⟩
  intro o
  obtain ⟨r, g1, g2⟩ := h3 (vecWrite (ε := ε)) o
  obtain ⟨e1, e2⟩ := g1.det (written_vec (ε := ε) _ o)
  subst e2
  refine Prod.ext ?_ ?_
  · rw [e1, k1, ← List.map_take, utf8_join, List.flatMap_map, List.flatMap_assoc]
    congr 2
    funext l
    exact (utf8_join l.pieces).symm
  · rw [g2]
    dsimp only
    by_cases hc : ∃ p ∈ F.depths 0, limit < 2 * p.1
    · rw [if_pos hc, if_neg (fun k => k2.1 k hc)]
    · rw [if_neg hc, if_pos (k2.2 hc)]

/-- A literal of `n` nodes inside of each other. -/
def chainLit (d : α) : Nat → Lit α
  | 0 => .nil
  | n + 1 => .node d (chainLit d n) .nil

theorem chainLit_spec (d : α) (ik : IndexKind) : ∀ n, (chainLit d n).plain = true ∧
    (chainLit d n).count = n ∧ (chainLit d n).len ik = 0 ∧
    ∀ pos i k j, j < n → ∃ p ∈ ((chainLit d n).layout ik pos i).depths k, p.1 = k + j
  | 0 => ⟨rfl, rfl, rfl, fun _ _ _ _ h => absurd h (Nat.not_lt_zero _)⟩
  | n + 1 => by
    obtain ⟨h1, h2, h3, h4⟩ := chainLit_spec d ik n
    refine ⟨by simp [chainLit, Lit.plain, h1], by simp [chainLit, Lit.count, h2]; omega,
      by simp [chainLit, Lit.len, h3], ?_⟩
    intro pos i k j hj
    simp only [chainLit, Lit.layout, Forest.depths, List.append_nil]
    cases j with
    | zero => exact ⟨_, List.mem_cons_self, rfl⟩
    | succ j =>
      obtain ⟨p, hp, e⟩ := h4 pos (i + 1) (k + 1) j (by omega)
      exact ⟨p, List.mem_cons_of_mem _ hp, by omega⟩

/-- C95: the bound of `C95_small_trees` cannot be raised: one node more, all inside of each other,
and `print` panics. -/
theorem C95_bound_sharp {fl : Flavor} (d : α) (hn : limit / 2 + 2 ≤ 2 ^ fl.width - 1)
    (hcut : ∀ n s, String.join (cut n s) = s) :
    ∃ t F, Made fl t F ∧ t.len = limit / 2 + 2 ∧ ∀ o,
      (t.printTo (ε := ε) limit cut vecWrite showIndex debugData debugStr source o).2 = .panic := by
  obtain ⟨h1, h2, h3, h4⟩ := chainLit_spec d fl.ik (limit / 2 + 2)
  obtain ⟨t, _, _, g3, _, g5⟩ := C01_literal_round_trip (fl := fl) (chainLit d (limit / 2 + 2)) h1
    ⟨by rw [h2]; exact hn, by
      rw [h3]; unfold Lit.Addressable; split
      · exact Nat.two_pow_pos _
      · trivial⟩
  refine ⟨t, _, .built g5, by rw [g3, h2], ?_⟩
  intro o
  obtain ⟨_, _, _, k⟩ := C95_depth (ε := ε) (limit := limit) (showIndex := showIndex)
    (debugData := debugData) (debugStr := debugStr) (source := source) (.built g5) hcut
  rw [k o]
  obtain ⟨p, hp, e⟩ := h4 0 0 0 (limit / 2 + 1) (by omega)
  exact if_pos ⟨p, hp, by omega⟩

/-! Cases. -/

/-- A writer that takes `k` pieces and then fails; it notes what it is asked to write. -/
def stingy (k : Nat) (o : List String) (s : String) : List String × Except Nat Unit :=
  (o ++ [s], if o.length < k then .ok () else .error o.length)

/-- The width accepted by recent versions of `core::fmt`: trees of up to 32768 nodes are safe, a
chain of 32769 is not. -/
example : ∃ t F, Made Flavor.default (t : Tree Nat) F ∧ t.len = 32769 ∧ ∀ o,
    (t.printTo (ε := Unit) 65535 (fun _ s => [s]) vecWrite toString toString id (fun _ => none) o).2 =
      .panic :=
  C95_bound_sharp (limit := 65535) (fl := Flavor.default) (cut := fun _ s => [s]) 0 (by decide)
    (by intro n s; simp [String.join])

/-- A tree on which the links disagree (`Props/Reading.lean`): the third piece fails, and nothing is
written after it. -/
example : wildTree.printTo 65535 (fun _ s => [s]) (stingy 2) toString toString id (fun _ => none) [] =
    (["4@0..3\n", "  1@0..1 +\n", "  5@1..3\n"], .err 2) := by decide +kernel

example : ∃ text, wildTree.printWithLookup toString toString id (fun _ => none) = some text ∧
    ∀ n, (wildTree.printTo 65535 (fun _ s => [s]) bufferWrite toString toString id (fun _ => none)
        ⟨[], n⟩).1.held = (utf8 (String.join text)).take n ∧
      (wildTree.printTo 65535 (fun _ s => [s]) bufferWrite toString toString id (fun _ => none)
        ⟨[], n⟩).2 = if (utf8 (String.join text)).length ≤ n then .ok else .err () :=
  C95_to_buffer wild_obtained (by intro n s; simp [String.join]) (by decide)

/-- Cut into characters, and with a small limit: two lines are written before the first node of depth
2 makes `print` panic. -/
example : ∃ text, demoTree.printWithLookup toString toString id (fun _ => none) = some text ∧
    ∀ o, demoTree.printTo (ε := Unit) 3 (fun _ s => s.toList.map fun c => String.ofList [c])
      vecWrite toString toString id (fun _ => none) o =
        (o ++ utf8 (String.join (text.take 2)), .panic) :=
  have ⟨text, h1, _, h3⟩ := C95_depth (ε := Unit) (limit := 3) demo_made
    (cut := fun _ s => s.toList.map fun c => String.ofList [c]) (by
      intro n s; apply String.toList_injective
      rw [String.toList_join, List.flatMap_map]
      simp)
  ⟨text, h1, fun o => by rw [h3 o, if_pos ⟨_, List.mem_cons_of_mem _ (List.mem_cons_of_mem _ List.mem_cons_self), by decide⟩]; rfl⟩

end Syntree
