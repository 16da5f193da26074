import Verif.Spec.Hint
import Verif.Props.Traverse

/-!
# C98: size hints

`HintHolds`: `Spec/Hint.lean`.
-/

namespace Syntree

variable {α σ : Type}

theorem findLoop_taken {ends : List (NextFn σ Nat)} {next : NextFn σ Nat} (hn : next ∈ ends)
    {p : Nat → Bool} : ∀ (fuel : Nat) {s s' : σ} {x : Nat}, findLoop next p fuel s = (s', .some x) →
    ∃ l, Taken ends s (l ++ [x]) s' := by
  intro fuel
  induction fuel with
  | zero => intro s s' x h; cases h
  | succ fuel ih =>
    intro s s' x h
    unfold findLoop at h
    rcases hs : next s with ⟨s1, r⟩
    rw [hs] at h
    cases r with
    | none => cases h
    | diverge => cases h
    | some y =>
      simp only at h
      split at h
      · cases h
        exact ⟨[], .step hn hs (.refl _)⟩
      · obtain ⟨l, hl⟩ := ih h
        exact ⟨y :: l, .step hn hs hl⟩

theorem Taken.append {β : Type} {ends : List (NextFn σ β)} {s s' s'' : σ} {l m : List β}
    (h : Taken ends s l s') (h' : Taken ends s' m s'') : Taken ends s (l ++ m) s'' := by
  induction h with
  | refl => exact h'
  | step hn hs _ ih => exact .step hn hs (ih h')

theorem Taken.skipTokens {nodes : Slice α} {ends : List (NextFn σ Nat)} {s s' : σ} {l : List Nat}
    (h : Taken (ends.map (SkipTokens.next nodes)) s l s') :
    ∃ m, Taken ends s m s' ∧ l.length ≤ m.length := by
  induction h with
  | refl => exact ⟨[], .refl _, Nat.le_refl _⟩
  | step hn hs _ ih =>
    obtain ⟨next, hm, rfl⟩ := List.mem_map.1 hn
    obtain ⟨m, h1, h2⟩ := ih
    obtain ⟨k, hk⟩ := findLoop_taken hm _ hs
    refine ⟨_, hk.append h1, ?_⟩
    simp only [List.length_cons, List.length_append]
    omega

/-- C98: if the size hint of an iterator over nodes holds, from whatever ends the items are taken and
whenever it is asked, then so does the one of its `skip_tokens()`. -/
theorem C98_skip_tokens (nodes : Slice α) (ends : List (NextFn σ Nat)) (hint : σ → SizeHint)
    (h : HintHolds ends hint) :
    HintHolds (ends.map (SkipTokens.next nodes)) (SkipTokens.sizeHint hint) := by
  intro s l s' ht
  obtain ⟨m, h1, h2⟩ := ht.skipTokens
  exact ⟨fun upper hu => Nat.le_trans h2 ((h s m s' h1).1 upper hu), fun _ => Nat.zero_le _⟩

/-- An iterator over the nodes of a list, which knows how many there are. -/
def countdown : NextFn (List Nat) Nat
  | [] => ([], .none)
  | x :: l => (l, .some x)

theorem countdown_holds : HintHolds [countdown] (fun l => (l.length, some l.length)) := by
  have key : ∀ s l s', Taken [countdown] s l s' → s.length = l.length + s'.length := by
    intro s l s' h
    induction h with
    | refl => simp
    | @step s s1 s2 x l next hn hs _ ih =>
      simp only [List.mem_singleton] at hn
      subst hn
      cases s with
      | nil => cases hs
      | cons y s => cases hs; simp only [List.length_cons, ih]; omega
  intro s l s' h
  have := key s l s' h
  refine ⟨fun u hu => by cases hu; omega, ?_⟩
  rintro ⟨next, hn, s'', e⟩
  simp only [List.mem_singleton] at hn
  subst hn
  cases s' with
  | nil => simp only [this]; simp
  | cons => cases e

example : HintHolds [SkipTokens.next demoTree.nodes countdown]
    (SkipTokens.sizeHint fun l => (l.length, some l.length)) :=
  C98_skip_tokens demoTree.nodes [countdown] _ countdown_holds

/-- C98: the iterators of the library do not promise anything, so they keep their promise; and so do
their `skip_tokens()`, from both ends where there are two. -/
theorem C98_library (nodes : Slice α) :
    HintHolds [Children.next nodes, Children.nextBack nodes] SizeHint.default ∧
    HintHolds [Siblings.next nodes] SizeHint.default ∧
    HintHolds [Ancestors.next nodes] SizeHint.default ∧
    HintHolds [Walk.next nodes] SizeHint.default ∧
    HintHolds [WithDepths.next nodes] SizeHint.default ∧
    HintHolds [Inside.next nodes] SizeHint.default ∧
    HintHolds [WalkEvents.next nodes] SizeHint.default ∧
    HintHolds [SkipTokens.next nodes (Children.next nodes),
      SkipTokens.nextBack nodes (Children.nextBack nodes)] (SkipTokens.sizeHint SizeHint.default) ∧
    HintHolds [SkipTokens.next nodes (Siblings.next nodes)] (SkipTokens.sizeHint SizeHint.default) ∧
    HintHolds [SkipTokens.next nodes (Ancestors.next nodes)] (SkipTokens.sizeHint SizeHint.default) ∧
    HintHolds [SkipTokens.next nodes (Walk.next nodes)] (SkipTokens.sizeHint SizeHint.default) := by
  have key : ∀ {σ β : Type} (ends : List (NextFn σ β)), HintHolds ends SizeHint.default :=
    by
    intro σ β ends s l s' _
    exact ⟨fun u h => (nomatch h), fun _ => Nat.zero_le _⟩
  exact ⟨key _, key _, key _, key _, key _, key _, key _,
    C98_skip_tokens nodes [Children.next nodes, Children.nextBack nodes] _ (key _),
    C98_skip_tokens nodes [_] _ (key _), C98_skip_tokens nodes [_] _ (key _),
    C98_skip_tokens nodes [_] _ (key _)⟩

/-- The only root of the tree that has children, taken from behind. -/
example : ∃ s, Taken [SkipTokens.next demoTree.nodes (Children.next demoTree.nodes),
      SkipTokens.nextBack demoTree.nodes (Children.nextBack demoTree.nodes)] demoTree.children [0] s :=
  ⟨_, .step (next := SkipTokens.nextBack demoTree.nodes (Children.nextBack demoTree.nodes))
    (by simp) rfl (.refl _)⟩

/-- C98: the lower bound has to be dropped: there are trees in which no node of an iterator has
children. -/
theorem C98_lower_dropped : HintHolds [countdown] (fun l => (l.length, some l.length)) ∧
    ¬ HintHolds [SkipTokens.next demoTree.nodes countdown] (fun l => (l.length, some l.length)) := by
  refine ⟨countdown_holds, fun h => ?_⟩
  have := (h [1, 2] [] [1, 2] (.refl _)).2 ⟨SkipTokens.next demoTree.nodes countdown, by simp, [], by rfl⟩
  simp at this

end Syntree
