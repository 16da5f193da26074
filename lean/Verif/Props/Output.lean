import Verif.Proof.Output
import Verif.Props.Equal

/-! # C67 (printing identifies trees), C68 (`Debug`) -/

namespace Syntree

variable {α : Type} {fl fl' : Flavor}

open Forest

/-! ## C67 -/

/-- C67: the texts that `print` writes for two trees are the same exactly if the trees are equal: the
text determines nesting, values and spans of all nodes. (For values whose texts are different and
unambiguous; indexes are integers.) -/
theorem C67_print_identifies [DecidableEq α] {a b : Tree α} {F G : Forest (Lab α)}
    (ha : Made fl a F) (hb : Made fl' b G) {debugData : α → String} (hd : Readable debugData)
    (debugStr : String → String) :
    (a.print showNat debugData debugStr).map String.join =
      (b.print showNat debugData debugStr).map String.join ↔ a.eq b = some true := by
  have hl : ∀ F : Forest (Lab α), linesOf (lineOf showNat debugData debugStr fun _ => none) 0 F =
      linesOf (lineOf showNat debugData id fun _ => none) 0 F := by
    intro F; rw [linesOf_eq, linesOf_eq]; rfl
  have hc : ∀ F : Forest (Lab α), linesOf (lineOf showNat debugData id fun _ => none) 0 F =
      linesOf (lineOf showNat debugData id fun _ => none) 0
        (F.content.map fun p => (⟨0, p.1, p.2⟩ : Lab α)) := by
    intro F
    have : ∀ (F : Forest (Lab α)) (d : Nat), linesOf (lineOf showNat debugData id fun _ => none) d F =
        linesOf (lineOf showNat debugData id fun _ => none) d
          (F.content.map fun p => (⟨0, p.1, p.2⟩ : Lab α)) := by
      intro F
      induction F with
      | nil => intro d; rfl
      | cons x k r ihk ihr =>
        intro d
        simp only [Forest.content, Forest.map, linesOf] at ihk ihr ⊢
        rw [← ihk, ← ihr]
        cases k <;> rfl
    exact this F 0
  rw [C46_print ha, C46_print hb, C39_eq_iff_same_forest ha hb, hl, hl]
  simp only [Option.map_some, Option.some.injEq, decide_eq_true_eq]
  constructor
  · exact print_read hd
  · intro h; rw [hc F, hc G, h]

/-- Digits, for the examples. -/
theorem showNat_readable : Readable showNat where
  inj x y h := by
    have := congrArg String.toList h
    rw [showNat_toList, showNat_toList] at this
    exact spell_inj this
  comma x := by rw [showNat_toList]; exact spell_digit (by decide)
  atSign x := by rw [showNat_toList]; exact spell_digit (by decide)
  line x := by rw [showNat_toList]; exact spell_digit (by decide)
  blank x := by
    rw [showNat_toList]
    have h1 := (spell_spec x).2.2
    cases h : spell x with
    | nil => simp
    | cons c s =>
      rw [h] at h1
      have := h1 c (by simp)
      rintro e
      simp only [List.head?_cons, Option.some.injEq] at e
      rw [e] at this
      exact absurd this (by decide)

/-- Two trees with the same nodes that are nested differently. -/
example : ∃ (a b : Tree Nat) (F G : Forest (Lab Nat)), Made Flavor.default a F ∧
    Made Flavor.default b G ∧ a.len = b.len ∧
    (a.print showNat showNat id).map String.join ≠ (b.print showNat showNat id).map String.join := by
  have ha : Built Flavor.default [.open 7, .open 8, .close, .close] _ _ := ⟨_, _, rfl, rfl, rfl⟩
  have hb : Built Flavor.default [.open 7, .close, .open (8 : Nat), .close] _ _ :=
    ⟨_, _, rfl, rfl, rfl⟩
  refine ⟨_, _, _, _, .built ha, .built hb, rfl, ?_⟩
  intro h
  have := (C67_print_identifies (.built ha) (.built hb) showNat_readable id).1 h
  exact absurd this (by decide)

/-! ## C68 -/

theorem plainRest_toList {β : Type} (f : β → Doc) (l : List β) :
    (Doc.plainRest (l.map f)).toList = (l.map fun x => ", ".toList ++ (f x).plain.toList).flatten := by
  induction l with
  | nil => rfl
  | cons x l ih => simp [Doc.plainRest, ih, String.toList_append]

theorem Represents.debug {g : Bool} {t : Tree α} {F : Forest (Lab α)} (h : Represents g t F)
    (debugData : α → String) : t.debug showNat showInt debugData =
      some (.tuple1 "Tree" (.list ((F.depths 0).map fun p => docOf debugData p.1 p.2))) := by
  unfold Tree.debug
  rw [forLoop_of_yields h.with_depths]
  · simp only [Option.map_some, Option.some.injEq, Doc.tuple1.injEq, true_and, Doc.list.injEq]
    rw [List.map_map]
    apply List.map_congr_left
    rintro ⟨d, x⟩ hx
    obtain ⟨anc, left, kids, right, _, hl⟩ := Forest.Loc.of_depths hx
    obtain ⟨l, hlr, hx'⟩ := hl.links h.root
    simp only [Function.comp, debugEntry, hx', mkLinks, Links.debug, Span.debug, docOf]
  · rw [List.length_map]
    have : (F.depths 0).length = F.preorder.length := by
      rw [← depths_snd 0 F, List.length_map]
    rw [this, preorder_length]
    have := h.size
    omega

/-- C68: `{:?}` lists all nodes in document order, each with its depth, value and span. -/
theorem C68_debug {t : Tree α} {F : Forest (Lab α)} (h : Made fl t F) (debugData : α → String) :
    t.debugText showNat showInt debugData = some
      ("Tree([" ++ ", ".intercalate ((F.depths 0).map fun p => entryOf debugData p.1 p.2) ++ "])") := by
  unfold Tree.debugText
  rw [h.represents.debug]
  simp only [Option.map_some, Option.some.injEq, Doc.plain]
  apply String.ext_iff.2
  cases hF : F.depths 0 with
  | nil => simp [Doc.plain]
  | cons p l =>
    rw [List.map_cons, List.map_cons]
    simp only [Doc.plain, String.toList_append, intercalate_toList, plainRest_toList, docOf_plain,
      List.map_map, List.append_assoc]
    simp [Function.comp_def]

/-- C68: `{:#?}` writes the same on lines of their own. (For values whose text is one line.) -/
theorem C68_pretty {t : Tree α} {F : Forest (Lab α)} (h : Made fl t F) {debugData : α → String}
    (hd : ∀ x, '\n' ∉ (debugData x).toList) :
    t.prettyText showNat showInt debugData = some
      (if F.isNil then "Tree(\n    [],\n)"
      else "Tree(\n    [\n" ++ String.join ((F.depths 0).map fun p => prettyOf debugData p.1 p.2) ++
        "    ],\n)") := by
  unfold Tree.prettyText
  rw [h.represents.debug]
  simp only [Option.map_some, Option.some.injEq, Doc.pretty]
  cases F with
  | nil => simp only [Forest.isNil, if_true, Forest.depths, List.map_nil, Doc.pretty]; decide
  | cons x k r =>
    simp only [Forest.isNil, Bool.false_eq_true, if_false]
    generalize hl : (Forest.cons x k r).depths 0 = l
    have hne : l ≠ [] := by rw [← hl]; simp [Forest.depths]
    cases l with
    | nil => exact absurd rfl hne
    | cons p l =>
      have hex : ∀ q : Nat × Lab α, ∃ ls, OnLines (docOf debugData q.1 q.2).pretty ls ∧
          unlines (ls.map fun l => fourBlanks ++ (fourBlanks ++ l)) =
            (prettyOf debugData q.1 q.2).toList := fun q => docOf_pretty _ _ _ (hd _)
      have hg := fun q => (Classical.choose_spec (hex q))
      generalize hgg : (fun q => Classical.choose (hex q)) = g at hg
      have hg1 : ∀ q, OnLines (docOf debugData q.1 q.2).pretty (g q) := by
        intro q; rw [← hgg]; exact (hg q).1
      have hg2 : ∀ q, unlines ((g q).map fun l => fourBlanks ++ (fourBlanks ++ l)) =
          (prettyOf debugData q.1 q.2).toList := by
        intro q; rw [← hgg]; exact (hg q).2
      have hlist := OnLines.list (fun q : Nat × Lab α => docOf debugData q.1 q.2) g p l
        (fun y _ => hg1 y)
      apply String.ext_iff.2
      rw [String.toList_append, String.toList_append, hlist.padded, String.toList_append,
        String.toList_append, String.toList_append, join_toList]
      have key : ∀ l : List (Nat × Lab α), unlines ((l.map fun x =>
          (g x).map (fourBlanks ++ ·)).flatten.map (fourBlanks ++ ·)) =
          ((l.map fun p => prettyOf debugData p.1 p.2).map String.toList).flatten := by
        intro l
        induction l with
        | nil => rfl
        | cons q l ih =>
          simp only [List.map_cons, List.flatten_cons, List.map_append, unlines_append, ih, ← hg2,
            List.map_map, Function.comp_def]
      rw [List.map_append, List.map_append, unlines_append, unlines_append, key]
      have e1 : "Tree".toList ++ "(\n".toList ++ unlines ([['[']].map (fourBlanks ++ ·)) =
          "Tree(\n    [\n".toList := by decide
      have e2 : unlines ([[']', ',']].map (fourBlanks ++ ·)) ++ ")".toList = "    ],\n)".toList := by
        decide
      rw [← e1, ← e2]
      simp only [List.append_assoc]

/-- C68: the texts `{:?}` gives for two trees are the same exactly if the trees are equal. -/
theorem C68_debug_identifies [DecidableEq α] {a b : Tree α} {F G : Forest (Lab α)}
    (ha : Made fl a F) (hb : Made fl' b G) {debugData : α → String} (hd : Readable debugData) :
    a.debugText showNat showInt debugData = b.debugText showNat showInt debugData ↔
      a.eq b = some true := by
  rw [C68_debug ha, C68_debug hb, C39_eq_iff_same_forest ha hb]
  simp only [Option.some.injEq, decide_eq_true_eq]
  constructor
  · exact debug_read hd
  · intro h
    have key : ∀ F : Forest (Lab α), (F.depths 0).map (fun p => entryOf debugData p.1 p.2) =
        (F.content.depths 0).map (fun p => entryOf debugData p.1 ⟨0, p.2.1, p.2.2⟩) := by
      intro F; rw [content_depths, List.map_map]; rfl
    rw [key, key, h]

theorem spell_digits : spell 0 = ['0'] ∧ spell 1 = ['1'] ∧ spell 2 = ['2'] ∧ spell 12 = ['1', '2'] := by
  simp [spell, digitChars]

/-- The output for a tree of two nodes. -/
example : ∃ t F, Made Flavor.default t F ∧
    t.debugText showNat showInt showNat =
      some "Tree([(0, Node { data: 1, span: (0, 12) }), (1, Node { data: 2, span: (0, 12) })])" := by
  have h : Built Flavor.default [.open 1, .token (2 : Nat) 12, .close] _ _ := ⟨_, _, rfl, rfl, rfl⟩
  refine ⟨_, _, .built h, ?_⟩
  rw [C68_debug (.built h)]
  simp only [Option.some.injEq]
  apply String.ext_iff.2
  show ("Tree([" ++ ", ".intercalate [entryOf showNat 0 ⟨0, 1, ⟨0, 12⟩⟩,
    entryOf showNat 1 ⟨1, 2, ⟨0, 12⟩⟩] ++ "])").toList = _
  simp only [String.toList_append, intercalate_toList, entryOf, showNat_toList, spell_digits,
    List.map_cons, List.map_nil]
  decide

/-- Two trees with the same nodes that are nested differently. -/
example : ∃ (a b : Tree Nat) (F G : Forest (Lab Nat)), Made Flavor.default a F ∧
    Made Flavor.default b G ∧ a.len = b.len ∧
    a.debugText showNat showInt showNat ≠ b.debugText showNat showInt showNat := by
  have ha : Built Flavor.default [.open 7, .open 8, .close, .close] _ _ := ⟨_, _, rfl, rfl, rfl⟩
  have hb : Built Flavor.default [.open 7, .close, .open (8 : Nat), .close] _ _ :=
    ⟨_, _, rfl, rfl, rfl⟩
  refine ⟨_, _, _, _, .built ha, .built hb, rfl, ?_⟩
  intro h
  have := (C68_debug_identifies (.built ha) (.built hb) showNat_readable).1 h
  exact absurd this (by decide)

/-- `C68_pretty` for the same tree. -/
example : ∃ t F, Made Flavor.default t F ∧ t.prettyText showNat showInt showNat = some
    ("Tree(\n    [\n" ++ String.join [prettyOf showNat 0 ⟨0, 1, ⟨0, 12⟩⟩,
      prettyOf showNat 1 ⟨1, 2, ⟨0, 12⟩⟩] ++ "    ],\n)") := by
  have h : Built Flavor.default [.open 1, .token (2 : Nat) 12, .close] _ _ := ⟨_, _, rfl, rfl, rfl⟩
  exact ⟨_, _, .built h, C68_pretty (.built h) showNat_readable.line⟩

end Syntree
