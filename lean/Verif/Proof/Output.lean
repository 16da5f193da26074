import Verif.Spec.Output
import Verif.Proof.Chars
import Verif.Proof.Equal
import Verif.Props.Small

/-! # Printed trees can be read back -/

namespace Syntree

variable {α : Type}

open Forest

/-- Two ways to cut the same text after the characters of a class are the same. -/
theorem cut_unique (p : Char → Bool) {a b x y : List Char} (ha : ∀ c ∈ a, p c = true)
    (hb : ∀ c ∈ b, p c = true) (hx : ∀ c, x.head? = some c → p c = false)
    (hy : ∀ c, y.head? = some c → p c = false) (h : a ++ x = b ++ y) : a = b ∧ x = y := by
  induction a generalizing b with
  | nil =>
    cases b with
    | nil => exact ⟨rfl, h⟩
    | cons c b =>
      have := hx c (by rw [show x = _ from h]; rfl)
      rw [hb c (by simp)] at this; cases this
  | cons d a ih =>
    cases b with
    | nil =>
      have := hy d (by rw [← show _ = y from h]; rfl)
      rw [ha d (by simp)] at this; cases this
    | cons c b =>
      simp only [List.cons_append, List.cons.injEq] at h
      obtain ⟨rfl, h⟩ := h
      obtain ⟨rfl, rfl⟩ := ih (fun c hc => ha c (by simp [hc])) (fun c hc => hb c (by simp [hc])) h
      exact ⟨rfl, rfl⟩

/-- Two ways to cut a text at the first `c` are the same. -/
theorem cut_at (c : Char) {a b x y : List Char} (ha : c ∉ a) (hb : c ∉ b)
    (h : a ++ c :: x = b ++ c :: y) : a = b ∧ x = y := by
  have := cut_unique (fun d => d != c) (x := c :: x) (y := c :: y)
    (by intro d hd; simp only [bne_iff_ne, ne_eq]; rintro rfl; exact ha hd)
    (by intro d hd; simp only [bne_iff_ne, ne_eq]; rintro rfl; exact hb hd)
    (by simp) (by simp) h
  simpa using this

theorem showNat_toList (n : Nat) : (showNat n).toList = spell n := by simp [showNat]

theorem spell_inj {m n : Nat} (h : spell m = spell n) : m = n := by
  have := (spell_spec m).1
  rw [h, (spell_spec n).1] at this
  exact this.symm

theorem spell_digit {n : Nat} {c : Char} (h : isDigit c = false) : c ∉ spell n := fun hc => by
  rw [(spell_spec n).2.2 c hc] at h; cases h

/-- Cut after a number. -/
theorem cut_num {m n : Nat} {x y : List Char} (hx : ∀ c, x.head? = some c → isDigit c = false)
    (hy : ∀ c, y.head? = some c → isDigit c = false) (h : spell m ++ x = spell n ++ y) :
    m = n ∧ x = y := by
  obtain ⟨h1, h2⟩ := cut_unique isDigit (spell_spec m).2.2 (spell_spec n).2.2 hx hy h
  exact ⟨spell_inj h1, h2⟩

theorem blanks_toList (n : Nat) : (blanks n).toList = List.replicate n ' ' := by simp [blanks]

/-- A line of `print` can be cut off the text and read. -/
theorem line_read {debugData : α → String} (hd : Readable debugData) {d e : Nat} {x y : Lab α}
    {f g : Bool} {s t : List Char}
    (h : (lineOf showNat debugData id (fun _ => none) d x f).toList ++ s =
      (lineOf showNat debugData id (fun _ => none) e y g).toList ++ t) :
    d = e ∧ x.data = y.data ∧ x.span = y.span ∧ s = t := by
  have key : ∀ (d : Nat) (x : Lab α) (f : Bool) (s : List Char),
      (lineOf showNat debugData id (fun _ => none) d x f).toList ++ s =
      List.replicate (2 * d) ' ' ++ ((debugData x.data).toList ++ '@' :: (spell x.span.start ++
        '.' :: '.' :: (spell x.span.stop ++ ((if f then [' ', '+'] else []) ++ '\n' :: s)))) := by
    intro d x f s
    cases f <;>
      simp [lineOf, blanks_toList, showNat_toList, String.toList_append, List.append_assoc]
  rw [key, key] at h
  have hh : ∀ (x : Lab α) (r : List Char) (c : Char),
      ((debugData x.data).toList ++ '@' :: r).head? = some c → (c == ' ') = false := by
    intro x r c hc
    have hb := hd.blank x.data
    cases hl : (debugData x.data).toList with
    | nil => rw [hl] at hc; simp at hc; subst hc; decide
    | cons z zs => rw [hl] at hc hb; simp at hc hb; subst hc; simpa using hb
  obtain ⟨h1, h2⟩ := cut_unique (fun c => c == ' ') (by simp) (by simp) (hh x _) (hh y _) h
  obtain ⟨h3, h4⟩ := cut_at '@' (hd.atSign _) (hd.atSign _) h2
  obtain ⟨h5, h6⟩ := cut_num (by simp; decide) (by simp; decide) h4
  simp only [List.cons.injEq, true_and] at h6
  obtain ⟨h7, h8⟩ := cut_num (by cases f <;> simp <;> decide) (by cases g <;> simp <;> decide) h6
  refine ⟨by have := congrArg List.length h1; simp only [List.length_replicate] at this; omega,
    hd.inj _ _ (String.ext_iff.2 h3), ?_, ?_⟩
  · cases hx : x.span; cases hy : y.span; rw [hx, hy] at h5 h7; simp_all
  · cases f <;> cases g <;> simp at h8 <;> exact h8

/-- An entry of `{:?}` can be cut off the text and read. -/
theorem entry_read {debugData : α → String} (hd : Readable debugData) {d e : Nat} {x y : Lab α}
    {s t : List Char}
    (h : (entryOf debugData d x).toList ++ s = (entryOf debugData e y).toList ++ t) :
    d = e ∧ x.data = y.data ∧ x.span = y.span ∧ s = t := by
  have key : ∀ (d : Nat) (x : Lab α) (s : List Char),
      (entryOf debugData d x).toList ++ s =
      '(' :: (spell d ++ ',' :: (" Node { data: ".toList ++ ((debugData x.data).toList ++ ',' ::
        (" span: (".toList ++ (spell x.span.start ++ ',' :: ' ' :: (spell x.span.stop ++
          ')' :: (" })".toList ++ s))))))) := by
    intro d x s
    simp [entryOf, showNat_toList, String.toList_append, List.append_assoc]
  rw [key, key] at h
  simp only [List.cons.injEq, true_and] at h
  obtain ⟨h1, h2⟩ := cut_num (by simp; decide) (by simp; decide) h
  simp only [List.cons.injEq, true_and, List.append_cancel_left_eq] at h2
  obtain ⟨h3, h4⟩ := cut_at ',' (hd.comma _) (hd.comma _) h2
  simp only [List.append_cancel_left_eq] at h4
  obtain ⟨h5, h6⟩ := cut_num (by simp; decide) (by simp; decide) h4
  simp only [List.cons.injEq, true_and] at h6
  obtain ⟨h7, h8⟩ := cut_num (by simp; decide) (by simp; decide) h6
  simp only [List.cons.injEq, true_and, List.append_cancel_left_eq] at h8
  refine ⟨h1, hd.inj _ _ (String.ext_iff.2 h3), ?_, h8⟩
  cases hx : x.span; cases hy : y.span; rw [hx, hy] at h5 h7; simp_all

theorem join_toList (l : List String) : (String.join l).toList = (l.map String.toList).flatten := by
  have : ∀ (l : List String) (s : String),
      (l.foldl (· ++ ·) s).toList = s.toList ++ (l.map String.toList).flatten := by
    intro l
    induction l with
    | nil => intro s; simp
    | cons x l ih => intro s; simp [ih, String.toList_append]
  simpa [String.join] using this l ""

theorem content_depths (F : Forest (Lab α)) :
    F.content.depths 0 = (F.depths 0).map (fun p => (p.1, p.2.data, p.2.span)) := by
  rw [Forest.content, depths_map]

/-- The text written by `print` determines depths, values and spans. -/
theorem lines_read {debugData : α → String} (hd : Readable debugData) :
    ∀ (l m : List (Nat × Lab α × Bool)),
    (l.map fun p => (lineOf showNat debugData id (fun _ => none) p.1 p.2.1 p.2.2).toList).flatten =
      (m.map fun p => (lineOf showNat debugData id (fun _ => none) p.1 p.2.1 p.2.2).toList).flatten →
    l.map (fun p => (p.1, p.2.1.data, p.2.1.span)) = m.map (fun p => (p.1, p.2.1.data, p.2.1.span))
  | [], [], _ => rfl
  | [], q :: m, h => by
    have := congrArg List.length h
    simp [lineOf, String.toList_append] at this
  | p :: l, [], h => by
    have := congrArg List.length h
    simp [lineOf, String.toList_append] at this
  | p :: l, q :: m, h => by
    simp only [List.map_cons, List.flatten_cons] at h
    obtain ⟨h1, h2, h3, h4⟩ := line_read hd h
    simp only [List.map_cons, h1, h2, h3, lines_read hd l m h4]

theorem print_read {debugData : α → String} (hd : Readable debugData) {F G : Forest (Lab α)}
    (h : String.join (linesOf (lineOf showNat debugData id (fun _ => none)) 0 F) =
      String.join (linesOf (lineOf showNat debugData id (fun _ => none)) 0 G)) :
    F.content = G.content := by
  have h := congrArg String.toList h
  rw [join_toList, join_toList, linesOf_eq, linesOf_eq, List.map_map, List.map_map] at h
  apply depths_inj (d := 0)
  rw [content_depths, content_depths, depths_flagged, depths_flagged, List.map_map, List.map_map]
  exact lines_read hd _ _ h

theorem intercalate_toList (s : String) (x : String) (l : List String) :
    (s.intercalate (x :: l)).toList = x.toList ++ (l.map fun y => s.toList ++ y.toList).flatten := by
  rw [String.toList_intercalate]
  have : ∀ (l : List (List Char)) (x : List Char), s.toList.intercalate (x :: l) =
      x ++ (l.map fun y => s.toList ++ y).flatten := by
    intro l
    induction l with
    | nil => intro x; simp [List.intercalate]
    | cons y l ih =>
      intro x
      have := ih y
      simp only [List.intercalate, List.intersperse_cons_cons, List.flatten_cons] at this ⊢
      rw [this]
      simp
  rw [List.map_cons, this, List.map_map]
  rfl

/-- The text written by `{:?}` determines depths, values and spans. -/
theorem entries_read {debugData : α → String} (hd : Readable debugData) :
    ∀ (l m : List (Nat × Lab α)) (s t : List Char), s.head? ≠ some ',' → t.head? ≠ some ',' →
    (l.map fun p => ", ".toList ++ (entryOf debugData p.1 p.2).toList).flatten ++ s =
      (m.map fun p => ", ".toList ++ (entryOf debugData p.1 p.2).toList).flatten ++ t →
    l.map (fun p => (p.1, p.2.data, p.2.span)) = m.map (fun p => (p.1, p.2.data, p.2.span))
  | [], [], _, _, _, _, _ => rfl
  | [], q :: m, s, t, hs, _, h => by
    refine absurd ?_ hs
    rw [show s = _ from h]; rfl
  | p :: l, [], s, t, _, ht, h => by
    refine absurd ?_ ht
    rw [← show _ = t from h]; rfl
  | p :: l, q :: m, s, t, hs, ht, h => by
    simp only [List.map_cons, List.flatten_cons, List.append_assoc, List.append_cancel_left_eq] at h
    obtain ⟨h1, h2, h3, h4⟩ := entry_read hd h
    simp only [List.map_cons, h1, h2, h3, entries_read hd l m s t hs ht h4]

theorem debug_read {debugData : α → String} (hd : Readable debugData) {F G : Forest (Lab α)}
    (h : "Tree([" ++ ", ".intercalate ((F.depths 0).map fun p => entryOf debugData p.1 p.2) ++ "])" =
      "Tree([" ++ ", ".intercalate ((G.depths 0).map fun p => entryOf debugData p.1 p.2) ++ "])") :
    F.content = G.content := by
  have h := congrArg String.toList h
  simp only [String.toList_append, List.append_assoc, List.append_cancel_left_eq,
    List.append_cancel_right_eq] at h
  apply depths_inj (d := 0)
  rw [content_depths, content_depths]
  cases hF : F.depths 0 with
  | nil =>
    cases hG : G.depths 0 with
    | nil => rfl
    | cons q m =>
      rw [hF, hG] at h
      have := congrArg List.length h
      rw [List.map_cons, intercalate_toList] at this
      simp [entryOf, String.toList_append] at this
  | cons p l =>
    cases hG : G.depths 0 with
    | nil =>
      rw [hF, hG] at h
      have := congrArg List.length h
      rw [List.map_cons, intercalate_toList] at this
      simp [entryOf, String.toList_append] at this
    | cons q m =>
      rw [hF, hG, List.map_cons, List.map_cons, intercalate_toList, intercalate_toList] at h
      obtain ⟨h1, h2, h3, h4⟩ := entry_read hd h
      rw [List.map_map, List.map_map] at h4
      have := entries_read hd l m [] [] (by simp) (by simp) (by simpa [Function.comp_def] using h4)
      simp only [List.map_cons, h1, h2, h3, this]

/-! ## `{:#?}` -/

/-- Lines, each ended by a line break. -/
def unlines (ls : List (List Char)) : List Char := (ls.map fun l => l ++ ['\n']).flatten

theorem unlines_append (a b : List (List Char)) : unlines (a ++ b) = unlines a ++ unlines b := by
  simp [unlines]

theorem unlines_cons (a : List Char) (b : List (List Char)) :
    unlines (a :: b) = a ++ '\n' :: unlines b := by
  simp [unlines]

def fourBlanks : List Char := [' ', ' ', ' ', ' ']

theorem padLines_line {s : List Char} (h : '\n' ∉ s) (t : List Char) :
    padLines true (s ++ '\n' :: t) = fourBlanks ++ s ++ '\n' :: padLines true t := by
  have inner : ∀ s : List Char, '\n' ∉ s →
      padLines false (s ++ '\n' :: t) = s ++ '\n' :: padLines true t := by
    intro s
    induction s with
    | nil => intro _; simp [padLines]
    | cons c s ih =>
      intro h
      have hc : c ≠ '\n' := by rintro rfl; simp at h
      simp only [List.cons_append, padLines, Bool.false_eq_true, if_false]
      rw [show (c == '\n') = false by simpa using hc, ih (fun h' => h (by simp [h']))]
      rfl
  cases s with
  | nil => simp [padLines, fourBlanks]
  | cons c s =>
    have hc : c ≠ '\n' := by rintro rfl; simp at h
    simp only [List.cons_append, padLines, if_true]
    rw [show (c == '\n') = false by simpa using hc, inner s (fun h' => h (by simp [h']))]
    rfl

theorem padLines_unlines {ls : List (List Char)} (h : ∀ l ∈ ls, '\n' ∉ l) :
    padLines true (unlines ls) = unlines (ls.map (fourBlanks ++ ·)) := by
  induction ls with
  | nil => rfl
  | cons l ls ih =>
    rw [unlines_cons, padLines_line (h l (by simp)), ih (fun l hl => h l (by simp [hl])),
      List.map_cons, unlines_cons]

/-- The field or element `s` takes the lines `ls`. -/
structure OnLines (s : String) (ls : List (List Char)) : Prop where
  lines : (s ++ ",\n").toList = unlines ls
  clean : ∀ l ∈ ls, '\n' ∉ l

theorem OnLines.padded {s : String} {ls : List (List Char)} (h : OnLines s ls) :
    (padded s).toList = unlines (ls.map (fourBlanks ++ ·)) := by
  unfold Syntree.padded
  rw [String.toList_ofList, h.lines, padLines_unlines h.clean]

theorem OnLines.text {s : String} (h : '\n' ∉ s.toList) : OnLines s [s.toList ++ [',']] :=
  ⟨by simp [unlines, String.toList_append], by simpa using h⟩

theorem clean_pad {ls : List (List Char)} (h : ∀ l ∈ ls, '\n' ∉ l) :
    ∀ l ∈ ls.map (fourBlanks ++ ·), '\n' ∉ l := by
  intro l hl
  obtain ⟨m, hm, rfl⟩ := List.mem_map.1 hl
  simpa [fourBlanks] using h m hm

theorem OnLines.field {s : String} {ls : List (List Char)} {l : List Char}
    (h : OnLines s (l :: ls)) {f : String} (hf : '\n' ∉ f.toList) :
    OnLines (f ++ ": " ++ s) ((f.toList ++ ':' :: ' ' :: l) :: ls) := by
  refine ⟨?_, ?_⟩
  · have := h.lines
    simp only [String.toList_append, unlines_cons] at this ⊢
    simp only [List.append_assoc, this]
    simp
  · intro x hx
    rcases List.mem_cons.1 hx with rfl | hx
    · simpa [hf] using h.clean l (by simp)
    · exact h.clean x (by simp [hx])

theorem OnLines.tuple2 {name : String} (hn : '\n' ∉ name.toList) {x y : Doc}
    {lx ly : List (List Char)} (hx : OnLines x.pretty lx) (hy : OnLines y.pretty ly) :
    OnLines (Doc.tuple2 name x y).pretty ([name.toList ++ ['(']] ++ lx.map (fourBlanks ++ ·) ++
      ly.map (fourBlanks ++ ·) ++ [[')', ',']]) := by
  refine ⟨?_, ?_⟩
  · simp only [Doc.pretty, String.toList_append, hx.padded, hy.padded, unlines_append]
    simp [unlines]
  · intro l hl
    simp only [List.append_assoc, List.mem_append] at hl
    rcases hl with hl | hl | hl | hl
    · simp only [List.mem_singleton] at hl; subst hl; simpa using hn
    · exact clean_pad hx.clean l hl
    · exact clean_pad hy.clean l hl
    · simp only [List.mem_singleton] at hl; subst hl; simp

theorem OnLines.struct2 {name f1 f2 : String} (hn : '\n' ∉ name.toList) {x y : Doc}
    {lx ly : List (List Char)} (hx : OnLines (f1 ++ ": " ++ x.pretty) lx)
    (hy : OnLines (f2 ++ ": " ++ y.pretty) ly) :
    OnLines (Doc.struct2 name f1 x f2 y).pretty ([name.toList ++ [' ', '{']] ++
      lx.map (fourBlanks ++ ·) ++ ly.map (fourBlanks ++ ·) ++ [['}', ',']]) := by
  refine ⟨?_, ?_⟩
  · simp only [Doc.pretty, String.toList_append, hx.padded, hy.padded, unlines_append]
    simp [unlines]
  · intro l hl
    simp only [List.append_assoc, List.mem_append] at hl
    rcases hl with hl | hl | hl | hl
    · simp only [List.mem_singleton] at hl; subst hl; simpa using hn
    · exact clean_pad hx.clean l hl
    · exact clean_pad hy.clean l hl
    · simp only [List.mem_singleton] at hl; subst hl; simp

theorem prettyRest_lines {β : Type} (f : β → Doc) (g : β → List (List Char)) (l : List β)
    (h : ∀ x ∈ l, OnLines (f x).pretty (g x)) :
    (Doc.prettyRest (l.map f)).toList =
      unlines ((l.map fun x => (g x).map (fourBlanks ++ ·)).flatten) := by
  induction l with
  | nil => rfl
  | cons x l ih =>
    simp only [List.map_cons, Doc.prettyRest, String.toList_append, List.flatten_cons, unlines_append,
      (h x (by simp)).padded, ih (fun y hy => h y (by simp [hy]))]

theorem OnLines.list {β : Type} (f : β → Doc) (g : β → List (List Char)) (x : β) (l : List β)
    (h : ∀ y ∈ x :: l, OnLines (f y).pretty (g y)) :
    OnLines (Doc.list ((x :: l).map f)).pretty ([['[']] ++
      ((x :: l).map fun x => (g x).map (fourBlanks ++ ·)).flatten ++ [[']', ',']]) := by
  refine ⟨?_, ?_⟩
  · have hr := prettyRest_lines f g (x :: l) h
    simp only [List.map_cons, Doc.prettyRest] at hr
    simp only [List.map_cons, Doc.pretty, unlines_append]
    rw [← hr]
    simp [String.toList_append, unlines]
  · intro l' hl
    simp only [List.append_assoc, List.mem_append] at hl
    rcases hl with hl | hl | hl
    · simp only [List.mem_singleton] at hl; subst hl; simp
    · obtain ⟨m, hm, hl⟩ := List.mem_flatten.1 hl
      obtain ⟨y, hy, rfl⟩ := List.mem_map.1 hm
      exact clean_pad (h y hy).clean _ hl
    · simp only [List.mem_singleton] at hl; subst hl; simp

/-- The document of one node. -/
def docOf (debugData : α → String) (d : Nat) (x : Lab α) : Doc :=
  .tuple2 "" (.text (showInt d)) (.struct2 "Node" "data" (.text (debugData x.data)) "span"
    (.tuple2 "" (.text (showNat x.span.start)) (.text (showNat x.span.stop))))

theorem docOf_plain (debugData : α → String) (d : Nat) (x : Lab α) :
    (docOf debugData d x).plain = entryOf debugData d x := by
  apply String.ext_iff.2
  simp [docOf, Doc.plain, entryOf, showInt, String.toList_append]

theorem showInt_nat (n : Nat) : showInt (n : Int) = showNat n := rfl

theorem showNat_clean (n : Nat) : '\n' ∉ (showNat n).toList := by
  rw [showNat_toList]; exact spell_digit (by decide)

/-- Blanks. -/
def manyBlanks (n : Nat) : List Char := List.replicate n ' '
theorem prettyOf_toList (debugData : α → String) (d : Nat) (x : Lab α) :
    (prettyOf debugData d x).toList = manyBlanks 8 ++ "(\n".toList ++ manyBlanks 12 ++ spell d ++
      ",\n".toList ++ manyBlanks 12 ++ "Node {\n".toList ++ manyBlanks 16 ++ "data: ".toList ++
      (debugData x.data).toList ++ ",\n".toList ++ manyBlanks 16 ++ "span: (\n".toList ++
      manyBlanks 20 ++ spell x.span.start ++ ",\n".toList ++ manyBlanks 20 ++ spell x.span.stop ++
      ",\n".toList ++ manyBlanks 16 ++ "),\n".toList ++ manyBlanks 12 ++ "},\n".toList ++
      manyBlanks 8 ++ "),\n".toList := by
  have e1 : "        (\n".toList = manyBlanks 8 ++ "(\n".toList := by decide
  have e2 : "            ".toList = manyBlanks 12 := by decide
  have e3 : "            Node {\n".toList = manyBlanks 12 ++ "Node {\n".toList := by decide
  have e4 : "                data: ".toList = manyBlanks 16 ++ "data: ".toList := by decide
  have e5 : "                span: (\n".toList = manyBlanks 16 ++ "span: (\n".toList := by decide
  have e6 : "                    ".toList = manyBlanks 20 := by decide
  have e7 : "                ),\n".toList = manyBlanks 16 ++ "),\n".toList := by decide
  have e8 : "            },\n".toList = manyBlanks 12 ++ "},\n".toList := by decide
  have e9 : "        ),\n".toList = manyBlanks 8 ++ "),\n".toList := by decide
  unfold prettyOf
  simp only [String.toList_append, e1, e2, e3, e4, e5, e6, e7, e8, e9, showNat_toList,
    List.append_assoc]

/-- The lines of one node. -/
theorem docOf_pretty (debugData : α → String) (d : Nat) (x : Lab α)
    (hd : '\n' ∉ (debugData x.data).toList) : ∃ ls, OnLines (docOf debugData d x).pretty ls ∧
      unlines (ls.map fun l => fourBlanks ++ (fourBlanks ++ l)) = (prettyOf debugData d x).toList := by
  have h1 := OnLines.tuple2 (name := "") (by simp) (x := .text (showNat x.span.start))
    (y := .text (showNat x.span.stop)) (OnLines.text (showNat_clean _)) (OnLines.text (showNat_clean _))
  simp only [List.cons_append, List.nil_append, List.map_cons, List.map_nil] at h1
  have h2 := OnLines.struct2 (name := "Node") (by decide) (x := .text (debugData x.data))
    ((OnLines.text hd).field (f := "data") (by decide)) (h1.field (f := "span") (by decide))
  simp only [List.cons_append, List.nil_append, List.map_cons, List.map_nil] at h2
  have h3 := OnLines.tuple2 (name := "") (by simp) (x := .text (showInt d))
    (by rw [Doc.pretty, showInt_nat]; exact OnLines.text (showNat_clean d)) h2
  simp only [List.cons_append, List.nil_append, List.map_cons, List.map_nil] at h3
  refine ⟨_, h3, ?_⟩
  rw [prettyOf_toList]
  have e1 : ",\n".toList = [',', '\n'] := by decide
  have e2 : "(\n".toList = ['(', '\n'] := by decide
  have e3 : "Node {\n".toList = "Node".toList ++ [' ', '{', '\n'] := by decide
  have e4 : "data: ".toList = "data".toList ++ [':', ' '] := by decide
  have e5 : "span: (\n".toList = "span".toList ++ [':', ' ', '(', '\n'] := by decide
  have e6 : "),\n".toList = [')', ',', '\n'] := by decide
  have e7 : "},\n".toList = ['}', ',', '\n'] := by decide
  have e8 : "".toList = ([] : List Char) := by decide
  have s5 : manyBlanks 20 = fourBlanks ++ (fourBlanks ++ (fourBlanks ++ (fourBlanks ++ fourBlanks))) := by
    decide
  have s4 : manyBlanks 16 = fourBlanks ++ (fourBlanks ++ (fourBlanks ++ fourBlanks)) := by decide
  have s3 : manyBlanks 12 = fourBlanks ++ (fourBlanks ++ fourBlanks) := by decide
  have s2 : manyBlanks 8 = fourBlanks ++ fourBlanks := by decide
  rw [e1, e2, e3, e4, e5, e6, e7, s5, s4, s3, s2]
  generalize fourBlanks = b
  generalize "Node".toList = w1
  generalize "data".toList = w2
  generalize "span".toList = w3
  simp only [unlines, e8, Doc.pretty, showInt_nat, showNat_toList, List.map_cons, List.map_nil,
    List.flatten_cons, List.flatten_nil, List.append_assoc, List.cons_append, List.nil_append,
    List.append_nil]

end Syntree
