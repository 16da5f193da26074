import Verif.Proof.Asking
import Verif.Props.Traverse

/-!
# What a predicate is asked: C85
-/

namespace Syntree

variable {α : Type} {μ : Type} {fl : Flavor} {t : Tree α} {F : Forest (Lab α)}

/-- C85: `find_preceding` with a predicate that remembers. It is asked about the previous siblings of
the node and of its ancestors, from the node upwards, until it accepts one (`b`), and from then on
about what is reached from `b` through `last()`, until it refuses one; the answer is the last node
it accepted. -/
theorem C85_find_preceding (h : Made fl t F) (p : μ → Nat → μ × Bool) (m : μ) {i : Nat}
    {path : List Nat} (hi : i < t.len)
    (hp : Yields (Ancestors.next t.nodes) (nodeAncestors i) path) :
    let up := askUntil p m (path.filterMap (nodePrev t.nodes))
    (up.2 = none → findPrecedingWith t.nodes p m i = (up.1, .none)) ∧
    ∀ b, up.2 = some b → ∃ chain, Iterated (nodeLast t.nodes) b chain ∧
      findPrecedingWith t.nodes p m i =
        ((askWhile p up.1 b chain).1, .some (askWhile p up.1 b chain).2) := by
  have hr := h.represents
  obtain ⟨anc, left, x, kids, right, rfl, hl⟩ := (C17_links_match_place h).1 i hi
  have := (hr.ancestors hl).det hp
  subst this
  have hsz := hr.size
  have hd := hl.depth_lt
  simp only [Forest.size] at hd
  have hup := hr.ascendWith p anc (fuel := t.nodes.length + 1) m hl (by omega)
  simp only at hup ⊢
  refine ⟨fun hn => ?_, fun b hb => ?_⟩
  · rw [hn] at hup
    simp [findPrecedingWith, hup, Got.ofOption]
  · rw [hb] at hup
    have hmem : b ∈ (x.id :: anc.map (·.id)).filterMap (nodePrev t.nodes) := by
      have key : ∀ (l : List Nat) (m : μ), (askUntil p m l).2 = some b → b ∈ l := by
        intro l
        induction l with
        | nil => intro m h; simp [askUntil] at h
        | cons y l ih =>
          intro m h
          simp only [askUntil] at h
          split at h
          · simp only [Option.some.injEq] at h; simp [h]
          · exact List.mem_cons_of_mem _ (ih _ h)
      exact key _ _ hb
    obtain ⟨pre, a, post, L, y, k, ka, ra, e, rfl, hy⟩ := hr.ups_loc anc hl b hmem
    have hk := hy.depth_lt
    simp only [Forest.size] at hk
    obtain ⟨l, h0, h1, _⟩ := hr.last_chain (t.nodes.length + 1) hy (by omega)
    refine ⟨l.map (·.id), h1, ?_⟩
    simp only [findPrecedingWith, hup, Got.ofOption]
    exact descendWith _ _ h1 _ _ (by simpa using h0)

/-- A predicate that accepts every second node it is asked about, and remembers all of them. -/
def everySecond : List Nat → Nat → List Nat × Bool :=
  fun seen n => (seen ++ [n], seen.length % 2 == 1)

/-- From token 4 of `demoTree`: 3 is accepted, then its last child 2 is refused. -/
example : findPrecedingWith demoTree.nodes everySecond [7] 4 = ([7, 3, 2], .some 3) := rfl

example : ∃ chain, Iterated (nodeLast demoTree.nodes) 3 chain ∧
    findPrecedingWith demoTree.nodes everySecond [7] 4 =
      ((askWhile everySecond [7, 3] 3 chain).1, .some (askWhile everySecond [7, 3] 3 chain).2) :=
  (C85_find_preceding demo_made everySecond [7] (i := 4) (path := [4, 0]) (by decide)
    (.item (s' := some 0) rfl (.item (s' := none) rfl (.done (s' := none) rfl)))).2 3 rfl

/-- A predicate that writes down what it is asked, and may answer by what it has been asked
before. -/
def logged (answer : List Nat → Nat → Bool) : List Nat → Nat → List Nat × Bool :=
  fun seen n => (seen ++ [n], answer seen n)

theorem askUntil_logged (answer : List Nat → Nat → Bool) (l : List Nat) : ∀ seen : List Nat,
    ∃ l' rest, l = l' ++ rest ∧ (askUntil (logged answer) seen l).1 = seen ++ l' ∧
      ∀ b, (askUntil (logged answer) seen l).2 = some b → b ∈ l' := by
  induction l with
  | nil => intro seen; exact ⟨[], [], rfl, by simp [askUntil], by simp [askUntil]⟩
  | cons x l ih =>
    intro seen
    cases hx : answer seen x with
    | true => exact ⟨[x], l, rfl, by simp [askUntil, logged, hx], by simp [askUntil, logged, hx]⟩
    | false =>
      obtain ⟨l', rest, e, h1, h2⟩ := ih (seen ++ [x])
      refine ⟨x :: l', rest, by rw [e]; rfl, ?_, ?_⟩
      · simp only [askUntil, show (logged answer seen x) = (seen ++ [x], false) by simp [logged, hx]]
        simpa using h1
      · simp only [askUntil, show (logged answer seen x) = (seen ++ [x], false) by simp [logged, hx]]
        exact fun b hb => List.mem_cons_of_mem _ (h2 b (by simpa using hb))

theorem askWhile_logged (answer : List Nat → Nat → Bool) (l : List Nat) : ∀ (seen : List Nat)
    (b : Nat), ∃ l' rest, l = l' ++ rest ∧ (askWhile (logged answer) seen b l).1 = seen ++ l' := by
  induction l with
  | nil => intro seen b; exact ⟨[], [], rfl, by simp [askWhile]⟩
  | cons x l ih =>
    intro seen b
    cases hx : answer seen x with
    | false => exact ⟨[x], l, rfl, by simp [askWhile, logged, hx]⟩
    | true =>
      obtain ⟨l', rest, e, h1⟩ := ih (seen ++ [x]) x
      refine ⟨x :: l', rest, by rw [e]; rfl, ?_⟩
      simp only [askWhile, show (logged answer seen x) = (seen ++ [x], true) by simp [logged, hx]]
      simpa using h1

/-- C85: one call of `find_preceding` never asks about the same node twice, whatever the predicate
answers. -/
theorem C85_asked_once (h : Made fl t F) (answer : List Nat → Nat → Bool) {i : Nat}
    (hi : i < t.len) : (findPrecedingWith t.nodes (logged answer) [] i).1.Nodup := by
  have hr := h.represents
  obtain ⟨anc, left, x, kids, right, rfl, hl⟩ := (C17_links_match_place h).1 i hi
  have hk := C85_find_preceding h (logged answer) [] hi (hr.ancestors hl)
  obtain ⟨l', rest, e, h1, h2⟩ := askUntil_logged answer
    ((x.id :: anc.map (·.id)).filterMap (nodePrev t.nodes)) []
  simp only [List.nil_append] at h1
  have hn := hr.ups_nodup anc hl
  cases hb : (askUntil (logged answer) []
      ((x.id :: anc.map (·.id)).filterMap (nodePrev t.nodes))).2 with
  | none =>
    rw [hk.1 hb]
    simp only [h1]
    rw [e] at hn
    exact (List.nodup_append.1 hn).1
  | some b =>
    obtain ⟨chain, hc, h3⟩ := hk.2 b hb
    have hmem : b ∈ (x.id :: anc.map (·.id)).filterMap (nodePrev t.nodes) := by
      rw [e]; exact List.mem_append_left _ (h2 b hb)
    have hall := hr.asked_once hl hmem hc
    obtain ⟨c', rest', e', h4⟩ := askWhile_logged answer chain l' b
    rw [h3, h1]
    simp only [h4]
    refine List.Sublist.nodup ?_ hall
    rw [e, e']
    exact (List.sublist_append_left _ _).append (List.sublist_append_left _ _)

/-- From token 4 of `demoTree`, asking until a node is accepted that was asked about second. -/
example : findPrecedingWith demoTree.nodes (logged fun seen _ => seen == []) [] 4 =
    ([3, 2], .some 3) ∧
    (findPrecedingWith demoTree.nodes (logged fun seen _ => seen == []) [] 4).1.Nodup :=
  ⟨rfl, C85_asked_once demo_made _ (by decide)⟩

/-- C85: `find` and `rfind` on an iterator with `skip_tokens()`: the predicate is asked about the
nodes with children that the iterator has left, in order, until it accepts one. That one is
returned, and the iterator goes on after it; if it accepts none, the iterator is used up (if it is
fused, as all of them are by `C19_fused`). -/
theorem C85_skip_tokens_find {σ : Type} (nodes : Slice α) {next : NextFn σ Nat} {s : σ}
    {l : List Nat} (h : Yields next s l) (hb : l.length ≤ nodes.length) (p : μ → Nat → μ × Bool)
    (m : μ) :
    let r := askUntil p m (l.filter (hasChildren nodes))
    ∃ s', SkipTokens.findWith nodes next p m s = (r.1, s', Got.ofOption r.2) ∧
      SkipTokens.rfindWith nodes next p m s = (r.1, s', Got.ofOption r.2) ∧
      (∀ x, r.2 = some x → ∃ pre post, l = pre ++ x :: post ∧ Yields next s' post) ∧
      (r.2 = none → Fused next → Yields next s' []) := by
  obtain ⟨s', h1, h0, h2⟩ := findLoopWith_spec
    (fun m n => if hasChildren nodes n then p m n else (m, false)) h m (nodes.length + 1) (by omega)
  rw [askUntil_filter] at h0 h1 h2
  refine ⟨s', h1, h1, h2, fun hn hf => ?_⟩
  obtain ⟨s0, e⟩ := h0 hn
  exact (hf _ _ e).1

example : ∃ s', SkipTokens.findWith demoTree.nodes (Walk.next demoTree.nodes) everySecond []
    demoTree.walk = ([0, 3], s', .some 3) ∧ ∃ pre post, [0, 3, 1, 2, 4, 5] = pre ++ 3 :: post ∧
      Yields (Walk.next demoTree.nodes) s' post := by
  obtain ⟨s', h1, -, h2⟩ := C85_skip_tokens_find demoTree.nodes
    (C06_walk_once_in_order demo_made).1 (by decide) everySecond []
  exact ⟨s', h1, h2.1 3 rfl⟩

/-- C85: a predicate that does not remember anything. `find_preceding`, `find` and `rfind` are then
the functions that C18 and C20 are about. -/
theorem C85_without_memory {σ : Type} (nodes : Slice α) (p : Nat → Bool) (m : μ) (n : Nat)
    (next : NextFn σ Nat) (s : σ) :
    findPrecedingWith nodes (fun m n => (m, p n)) m n = (m, findPreceding nodes p n) ∧
    SkipTokens.findWith nodes next (fun m n => (m, p n)) m s = (m, SkipTokens.find nodes next p s) ∧
    SkipTokens.rfindWith nodes next (fun m n => (m, p n)) m s =
      (m, SkipTokens.rfind nodes next p s) := by
  have e : (fun (m : μ) (n : Nat) => if hasChildren nodes n then (m, p n) else (m, false)) =
      fun m n => (m, hasChildren nodes n && p n) := by
    funext m n
    cases hasChildren nodes n <;> rfl
  refine ⟨findPrecedingWith_pure nodes p m n, ?_, ?_⟩ <;>
    simp only [SkipTokens.findWith, SkipTokens.rfindWith, SkipTokens.find, SkipTokens.rfind, e,
      findLoopWith_pure]

example : (findPrecedingWith demoTree.nodes (fun m _ => (m + 1, true)) 0 4).2 = .some 2 := rfl

end Syntree
