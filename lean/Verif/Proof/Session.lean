import Verif.Proof.Nav
import Verif.Spec.Session

/-! Programs that iterate over a tree and replace values in between. -/

namespace Syntree

variable {α σ : Type}

/-! ## Iterators do not look at the data -/

/-- Links without the data. -/
def Links.bareOf (l : Links α) : Links Unit := ⟨(), l.span, l.parent, l.prev, l.next, l.first, l.last⟩

/-- A slice without the data. -/
def linksOnly (nodes : Slice α) : Slice Unit := nodes.map Links.bareOf

theorem linksOnly_length (nodes : Slice α) : (linksOnly nodes).length = nodes.length := by simp [linksOnly]

theorem linksOnly_get (nodes : Slice α) (i : Nat) : (linksOnly nodes)[i]? = nodes[i]?.map Links.bareOf := by
  simp [linksOnly]

theorem nodeAt_bare (nodes : Slice α) (i : Nat) : nodeAt (linksOnly nodes) i = nodeAt nodes i := by
  unfold nodeAt
  rw [linksOnly_get]
  cases nodes[i]? <;> rfl

theorem nodeNext_bare (nodes : Slice α) (i : Nat) : nodeNext (linksOnly nodes) i = nodeNext nodes i := by
  unfold nodeNext follow
  rw [linksOnly_get]
  cases nodes[i]? with
  | none => rfl
  | some l => simp only [Option.map_some, Links.bareOf, nodeAt_bare]

theorem nodeParent_bare (nodes : Slice α) (i : Nat) :
    nodeParent (linksOnly nodes) i = nodeParent nodes i := by
  unfold nodeParent follow
  rw [linksOnly_get]
  cases nodes[i]? with
  | none => rfl
  | some l => simp only [Option.map_some, Links.bareOf, nodeAt_bare]

theorem hasChildren_bare (nodes : Slice α) : hasChildren (linksOnly nodes) = hasChildren nodes := by
  funext i
  unfold hasChildren
  rw [linksOnly_get]
  cases nodes[i]? <;> rfl

theorem children_next_bare (nodes : Slice α) : Children.next (linksOnly nodes) = Children.next nodes := by
  funext c
  unfold Children.next
  cases c.first with
  | none => rfl
  | some f =>
    simp only [linksOnly_get]
    cases nodes[f]? <;> rfl

theorem children_back_bare (nodes : Slice α) :
    Children.nextBack (linksOnly nodes) = Children.nextBack nodes := by
  funext c
  unfold Children.nextBack
  cases c.last with
  | none => rfl
  | some f =>
    simp only [linksOnly_get]
    cases nodes[f]? <;> rfl

theorem siblings_next_bare (nodes : Slice α) : Siblings.next (linksOnly nodes) = Siblings.next nodes := by
  funext s
  cases s with
  | none => rfl
  | some n => simp only [Siblings.next, nodeNext_bare]

theorem ancestors_next_bare (nodes : Slice α) :
    Ancestors.next (linksOnly nodes) = Ancestors.next nodes := by
  funext s
  cases s with
  | none => rfl
  | some n => simp only [Ancestors.next, nodeParent_bare]

theorem events_next_bare (nodes : Slice α) : WalkEvents.next (linksOnly nodes) = WalkEvents.next nodes := by
  funext w
  unfold WalkEvents.next
  cases w.node with
  | none => rfl
  | some p =>
    simp only [linksOnly_get]
    cases nodes[p.1]? <;> rfl

theorem withDepths_next_bare (nodes : Slice α) :
    WithDepths.next (linksOnly nodes) = WithDepths.next nodes := by
  unfold WithDepths.next
  rw [linksOnly_length]
  have : ∀ fuel, WithDepths.nextLoop (linksOnly nodes) fuel = WithDepths.nextLoop nodes fuel := by
    intro fuel
    induction fuel with
    | zero => rfl
    | succ fuel ih => funext w; unfold WithDepths.nextLoop; rw [events_next_bare, ih]
  exact this _

theorem walk_next_bare (nodes : Slice α) : Walk.next (linksOnly nodes) = Walk.next nodes := by
  unfold Walk.next
  rw [linksOnly_length]
  have : ∀ fuel, Walk.nextLoop (linksOnly nodes) fuel = Walk.nextLoop nodes fuel := by
    intro fuel
    induction fuel with
    | zero => rfl
    | succ fuel ih => funext w; unfold Walk.nextLoop; rw [events_next_bare, ih]
  exact this _

theorem inside_next_bare (nodes : Slice α) : Inside.next (linksOnly nodes) = Inside.next nodes := by
  unfold Inside.next
  rw [linksOnly_length]
  have : ∀ fuel, Inside.nextLoop (linksOnly nodes) fuel = Inside.nextLoop nodes fuel := by
    intro fuel
    induction fuel with
    | zero => rfl
    | succ fuel ih => funext w; unfold Inside.nextLoop; rw [events_next_bare, ih]
  exact this _

theorem linksOnly_replace (nodes : Slice α) (i : Nat) (v : α) :
    linksOnly (nodeReplace nodes i v).1 = linksOnly nodes := by
  unfold nodeReplace
  cases h : nodes[i]? with
  | none => rfl
  | some l =>
    unfold linksOnly
    rw [List.map_set]
    have : (nodes.map Links.bareOf)[i]? = some l.bareOf := by simp [h]
    refine List.ext_getElem? ?_
    intro j
    rw [List.getElem?_set]
    by_cases hj : i = j
    · subst hj
      have hlt : i < (nodes.map Links.bareOf).length := (List.getElem?_eq_some_iff.1 this).1
      rw [if_pos rfl, if_pos hlt, this]
      rfl
    · rw [if_neg hj]

theorem replace_length (nodes : Slice α) (i : Nat) (v : α) :
    (nodeReplace nodes i v).1.length = nodes.length := by
  rw [← linksOnly_length, linksOnly_replace, linksOnly_length]

theorem replace_value (nodes : Slice α) (i : Nat) (v : α) :
    nodeValue (nodeReplace nodes i v).1 =
      fun j => if j = i then (nodeValue nodes i).map (fun _ => v) else nodeValue nodes j := by
  funext j
  unfold nodeReplace nodeValue
  cases h : nodes[i]? with
  | none =>
    by_cases hj : j = i
    · subst hj; simp [h]
    · simp [hj]
  | some l =>
    simp only
    rw [List.getElem?_set]
    by_cases hj : i = j
    · subst hj
      have hlt : i < nodes.length := (List.getElem?_eq_some_iff.1 h).1
      simp [hlt]
    · have hj' : ¬ j = i := fun e => hj e.symm
      simp [hj, hj']

/-! ## Sessions -/

/-- States that stand for a list, for calls from the front. -/
def Front (R : List Nat → σ → Prop) (next : NextFn σ Nat) : Prop :=
  ∀ l s, R l s → (next s).2 = Got.ofOption l.head? ∧ R l.tail (next s).1

/-- The same from the back. -/
def Back (R : List Nat → σ → Prop) (back : NextFn σ Nat) : Prop :=
  ∀ l s, R l s → (back s).2 = Got.ofOption l.getLast? ∧ R l.dropLast (back s).1

theorem Front.find {R : List Nat → σ → Prop} {next : NextFn σ Nat} (h : Front R next)
    (p : Nat → Bool) : ∀ (fuel : Nat) (l : List Nat) (s : σ), R l s → l.length < fuel →
    (findLoop next p fuel s).2 = Got.ofOption (takeFirst p l).1 ∧
      R (takeFirst p l).2 (findLoop next p fuel s).1 := by
  intro fuel
  induction fuel with
  | zero => intro l s _ hl; omega
  | succ fuel ih =>
    intro l s hR hl
    obtain ⟨h1, h2⟩ := h l s hR
    unfold findLoop
    rcases hn : next s with ⟨s', g⟩
    rw [hn] at h1 h2
    simp only at h1 h2
    subst h1
    cases l with
    | nil => exact ⟨rfl, h2⟩
    | cons x l =>
      simp only [List.head?_cons, Got.ofOption, takeFirst, List.tail_cons] at h2 ⊢
      by_cases hp : p x = true
      · simp only [hp, if_true]; exact ⟨trivial, h2⟩
      · simp only [hp, Bool.false_eq_true, if_false]
        exact ih l s' h2 (by simp at hl; omega)

theorem Front.rev {R : List Nat → σ → Prop} {back : NextFn σ Nat} (h : Back R back) :
    Front (fun l s => R l.reverse s) back := by
  intro l s hR
  obtain ⟨h1, h2⟩ := h _ s hR
  exact ⟨by rw [h1]; simp, by simpa using h2⟩

theorem takeFirst_true (l : List Nat) : takeFirst (fun _ => true) l = (l.head?, l.tail) := by
  cases l <;> simp [takeFirst]

theorem Back.find {R : List Nat → σ → Prop} {back : NextFn σ Nat} (h : Back R back)
    (p : Nat → Bool) {fuel : Nat} {l : List Nat} {s : σ} (hR : R l s) (hf : l.length < fuel) :
    (findLoop back p fuel s).2 = Got.ofOption (takeLast p l).1 ∧
      R (takeLast p l).2 (findLoop back p fuel s).1 :=
  Front.find (Front.rev h) p fuel l.reverse s (by simpa using hR) (by simpa using hf)

theorem takeFirst_length (p : Nat → Bool) (l : List Nat) : (takeFirst p l).2.length ≤ l.length := by
  induction l with
  | nil => simp [takeFirst]
  | cons x l ih => unfold takeFirst; split <;> simp <;> omega

theorem onList_length (inner : Nat → Bool) (a : Ask) (l : List Nat) :
    (a.onList inner l).2.length ≤ l.length := by
  have back : ∀ p, (takeLast p l).2.length ≤ l.length := fun p => by
    have := takeFirst_length p l.reverse
    simpa [takeLast] using this
  cases a with
  | next => exact takeFirst_length _ _
  | nextNode => exact takeFirst_length _ _
  | find p => exact takeFirst_length _ _
  | findNode p => exact takeFirst_length _ _
  | nextBack => exact back _
  | nextNodeBack => exact back _
  | rfind p => exact back _
  | rfindNode p => exact back _

theorem ask_ok {R : List Nat → σ → Prop} {nodes : Slice α} {next back : NextFn σ Nat}
    (hF : Front R next) (a : Ask) (hB : a.forward = false → Back R back) {l : List Nat} {s : σ}
    (hR : R l s) (hl : l.length ≤ nodes.length) :
    (a.call nodes next back s).2 = Got.ofOption (a.onList (hasChildren nodes) l).1 ∧
      R (a.onList (hasChildren nodes) l).2 (a.call nodes next back s).1 := by
  have hf : l.length < nodes.length + 1 := by omega
  cases a with
  | next =>
    simp only [Ask.call, Ask.onList, takeFirst_true]; exact hF l s hR
  | nextBack =>
    simp only [Ask.call, Ask.onList, takeLast, takeFirst_true]
    have := hB rfl l s hR
    simpa using this
  | nextNode => exact hF.find _ _ _ _ hR hf
  | nextNodeBack => exact Back.find (hB rfl) _ hR hf
  | find p => exact hF.find _ _ _ _ hR hf
  | rfind p => exact Back.find (hB rfl) _ hR hf
  | findNode p => exact hF.find _ _ _ _ hR hf
  | rfindNode p => exact Back.find (hB rfl) _ hR hf

/-- A session with the code is a session with a list. -/
theorem session_ok {R : List Nat → σ → Prop} {next back : Slice α → NextFn σ Nat}
    (hb : ∀ nodes i v, next (nodeReplace nodes i v).1 = next nodes ∧
      back (nodeReplace nodes i v).1 = back nodes) :
    ∀ (cs : List (Cmd α)) (nodes : Slice α) (l : List Nat) (s : σ), Front R (next nodes) →
    ((∀ c ∈ cs, c.forward = true) ∨ Back R (back nodes)) → R l s → l.length ≤ nodes.length →
    let r := session next back cs nodes s
    let q := listSession (hasChildren nodes) cs (nodeValue nodes) l
    r.1 = q.1.map Got.ofOption ∧ nodeValue r.2.1 = q.2.1 ∧ linksOnly r.2.1 = linksOnly nodes ∧
      next r.2.1 = next nodes ∧ R q.2.2 r.2.2 := by
  intro cs
  induction cs with
  | nil => intro nodes l s _ _ hR _; exact ⟨rfl, rfl, rfl, rfl, hR⟩
  | cons c cs ih =>
    intro nodes l s hF hB hR hl
    cases c with
    | replace i v =>
      have hbn := hb nodes i v
      have hch : hasChildren (nodeReplace nodes i v).1 = hasChildren nodes := by
        rw [← hasChildren_bare, linksOnly_replace, hasChildren_bare]
      have := ih (nodeReplace nodes i v).1 l s (by rw [hbn.1]; exact hF)
        (by rw [hbn.2]; exact hB.imp (fun h c hc => h c (by simp [hc])) id) hR
        (by rw [replace_length]; exact hl)
      simp only [session, listSession]
      rw [replace_value, hch, linksOnly_replace, hbn.1] at this
      exact this
    | ask a =>
      obtain ⟨h1, h2⟩ := ask_ok (nodes := nodes) hF a (back := back nodes) (fun hfw => by
        rcases hB with hB | hB
        · have := hB (.ask a) (by simp)
          simp only [Cmd.forward] at this
          rw [hfw] at this; simp at this
        · exact hB) hR hl
      obtain ⟨i1, i2, i3, i4, i5⟩ := ih nodes _ _ hF (hB.imp (fun h c hc => h c (by simp [hc])) id) h2
        (Nat.le_trans (onList_length _ _ _) hl)
      simp only [session, listSession]
      refine ⟨?_, i2, i3, i4, i5⟩
      rw [List.map_cons, i1, h1]
      congr 1
      cases (a.onList (hasChildren nodes) l).1 <;> rfl

/-- An iterator that ends and stays finished. -/
theorem front_of_yields {next : NextFn σ Nat}
    (hf : ∀ s s', next s = (s', .none) → ∃ s'', next s' = (s'', .none)) :
    Front (fun l s => Yields next s l) next := by
  intro l s h
  cases h with
  | done e =>
    obtain ⟨s'', e'⟩ := hf _ _ e
    rw [e]
    exact ⟨rfl, .done e'⟩
  | item e h => rw [e]; exact ⟨rfl, h⟩

/-- The states of `children()` when `last()` is right. -/
def KidsAt (nodes : Slice α) (l : List Nat) (c : Children) : Prop :=
  ∃ (g : Bool) (A M B : Forest (Lab α)) (par : Option Nat),
    Seg g nodes (A ++ (M ++ B)) par none none ∧ M.ids.Nodup ∧ EndsState M c ∧ M.topIds = l

theorem kids_front (nodes : Slice α) : Front (KidsAt nodes) (Children.next nodes) := by
  rintro l c ⟨g, A, M, B, par, hs, hn, he, rfl⟩
  obtain ⟨h1, A', M', h2, h3, h4, h5⟩ := children_next hs hn he
  exact ⟨h1, g, A', M', B, par, h2 ▸ hs, h4, h5, h3⟩

theorem kids_back (nodes : Slice α) : Back (KidsAt nodes) (Children.nextBack nodes) := by
  rintro l c ⟨g, A, M, B, par, hs, hn, he, rfl⟩
  obtain ⟨h1, M', B', h2, h3, h4, h5⟩ := children_next_back hs hn he
  exact ⟨h1, g, A, M', B', par, h2 ▸ hs, h4, h5, h3⟩

theorem kids_start {g : Bool} {nodes : Slice α} {F : Forest (Lab α)} {par : Option Nat}
    (h : Seg g nodes F par none none) (nd : F.ids.Nodup) :
    KidsAt nodes F.topIds ⟨F.headId, F.lastId⟩ := by
  refine ⟨g, .nil, F, .nil, par, by simpa using h, nd, ?_, rfl⟩
  unfold EndsState
  split
  · rename_i hn
    cases F with
    | nil => exact .inl rfl
    | cons => simp at hn
  · exact ⟨rfl, rfl⟩

theorem replace_same {β : Type} {f : (γ : Type) → Slice γ → β}
    (hf : ∀ (nodes : Slice α), f Unit (linksOnly nodes) = f α nodes) (nodes : Slice α) (i : Nat) (v : α) :
    f α (nodeReplace nodes i v).1 = f α nodes := by
  rw [← hf, linksOnly_replace, hf]

theorem follow_bare (nodes : Slice α) (i : Nat) {f : Links α → Option Nat}
    {f' : Links Unit → Option Nat} (h : ∀ l, f' (Links.bareOf l) = f l) :
    follow (linksOnly nodes) i f' = follow nodes i f := by
  unfold follow
  rw [linksOnly_get]
  cases nodes[i]? with
  | none => rfl
  | some l => simp only [Option.map_some, h, nodeAt_bare]

theorem sameShape_bare {nodes nodes' : Slice α} (h : linksOnly nodes' = linksOnly nodes) :
    SameShape nodes nodes' := by
  have e : ∀ {f : Links α → Option Nat} {f' : Links Unit → Option Nat},
      (∀ l, f' (Links.bareOf l) = f l) → ∀ i, follow nodes' i f = follow nodes i f := by
    intro f f' hf i
    rw [← follow_bare nodes' i hf, h, follow_bare nodes i hf]
  refine ⟨by rw [← linksOnly_length, h, linksOnly_length], fun i => ⟨?_, ?_, ?_, ?_, ?_, ?_, ?_⟩⟩
  · have sp : ∀ n : Slice α, nodeSpan n i = ((linksOnly n)[i]?).map (·.span) := by
      intro n
      rw [linksOnly_get]
      unfold nodeSpan
      cases n[i]? <;> rfl
    rw [sp, h, ← sp]
  · exact e (f' := (·.parent)) (fun _ => rfl) i
  · exact e (f' := (·.prev)) (fun _ => rfl) i
  · exact e (f' := (·.next)) (fun _ => rfl) i
  · exact e (f' := (·.first)) (fun _ => rfl) i
  · exact e (f' := (·.last)) (fun _ => rfl) i
  · rw [← hasChildren_bare, h, hasChildren_bare]

theorem yields_of_front {R : List Nat → σ → Prop} {next : NextFn σ Nat} (h : Front R next) :
    ∀ (l : List Nat) (s : σ), R l s → Yields next s l := by
  intro l
  induction l with
  | nil =>
    intro s hR
    exact .done (s' := (next s).1) (Prod.ext rfl (h _ s hR).1)
  | cons x l ih =>
    intro s hR
    exact .item (s' := (next s).1) (Prod.ext rfl (h _ s hR).1) (ih _ (h _ s hR).2)

theorem plays {R : List Nat → σ → Prop} {next back : Slice α → NextFn σ Nat}
    (hb : ∀ nodes i v, next (nodeReplace nodes i v).1 = next nodes ∧
      back (nodeReplace nodes i v).1 = back nodes)
    {cs : List (Cmd α)} {nodes : Slice α} {l : List Nat} {s : σ} (hF : Front R (next nodes))
    (hB : (∀ c ∈ cs, c.forward = true) ∨ Back R (back nodes)) (hR : R l s)
    (hl : l.length ≤ nodes.length) : Plays next back cs nodes s l := by
  obtain ⟨h1, h2, h3, h4, h5⟩ := session_ok hb cs nodes l s hF hB hR hl
  refine ⟨h1, h2, ?_, sameShape_bare h3⟩
  rw [h4]
  exact yields_of_front hF _ _ h5

theorem walk_depths (nodes : Slice α) (w : WalkEvents) :
    Walk.next nodes w = ((WithDepths.next nodes w).1, (WithDepths.next nodes w).2.map (·.2)) :=
  walk_of_depths nodes _ w

theorem walkSession_ok (hf : ∀ (nodes : Slice α) s s', WithDepths.next nodes s = (s', .none) →
      ∃ s'', WithDepths.next nodes s' = (s'', .none)) :
    ∀ (cs : List (WalkCmd α)) (nodes : Slice α) (l : List (Int × Nat)) (w : WalkEvents),
    Yields (WithDepths.next nodes) w l →
    let r := walkSession cs nodes w
    let q := listWalk cs (nodeValue nodes) l
    r.1 = q.1.map Got.ofOption ∧ nodeValue r.2.1 = q.2.1 ∧ linksOnly r.2.1 = linksOnly nodes ∧
      Yields (WithDepths.next r.2.1) r.2.2 q.2.2 := by
  intro cs
  have front : ∀ (nodes : Slice α) (l : List (Int × Nat)) (w : WalkEvents),
      Yields (WithDepths.next nodes) w l → (WithDepths.next nodes w).2 = Got.ofOption l.head? ∧
        Yields (WithDepths.next nodes) (WithDepths.next nodes w).1 l.tail := by
    intro nodes l w h
    cases h with
    | done e =>
      obtain ⟨s'', e'⟩ := hf nodes _ _ e
      rw [e]
      exact ⟨rfl, .done e'⟩
    | item e h => rw [e]; exact ⟨rfl, h⟩
  induction cs with
  | nil => intro nodes l w h; exact ⟨rfl, rfl, rfl, h⟩
  | cons c cs ih =>
    intro nodes l w h
    cases c with
    | replace i v =>
      have hb : WithDepths.next (nodeReplace nodes i v).1 = WithDepths.next nodes :=
        replace_same (f := fun _ n => WithDepths.next n) withDepths_next_bare nodes i v
      have := ih (nodeReplace nodes i v).1 l w (by rw [hb]; exact h)
      simp only [walkSession, listWalk]
      rw [replace_value, linksOnly_replace] at this
      exact this
    | next =>
      obtain ⟨h1, h2⟩ := front nodes l w h
      obtain ⟨i1, i2, i3, i4⟩ := ih nodes l.tail _ h2
      simp only [walkSession, listWalk, walk_depths]
      refine ⟨?_, i2, i3, i4⟩
      rw [List.map_cons, i1, h1]
      congr 1
      cases l.head? <;> rfl
    | nextWithDepth =>
      obtain ⟨h1, h2⟩ := front nodes l w h
      obtain ⟨i1, i2, i3, i4⟩ := ih nodes l.tail _ h2
      simp only [walkSession, listWalk]
      refine ⟨?_, i2, i3, i4⟩
      rw [List.map_cons, i1, h1]
      congr 1
      cases l.head? <;> rfl

theorem session_append (next back : Slice α → NextFn σ Nat) (cs ds : List (Cmd α)) :
    ∀ (nodes : Slice α) (s : σ), session next back (cs ++ ds) nodes s =
      ((session next back cs nodes s).1 ++
        (session next back ds (session next back cs nodes s).2.1 (session next back cs nodes s).2.2).1,
        (session next back ds (session next back cs nodes s).2.1
          (session next back cs nodes s).2.2).2) := by
  induction cs with
  | nil => intro nodes s; rfl
  | cons c cs ih =>
    intro nodes s
    cases c with
    | replace i v => simp only [List.cons_append, session, ih]
    | ask a => simp only [List.cons_append, session, ih]

theorem session_value (next back : Slice α → NextFn σ Nat) (cs : List (Cmd α)) :
    ∀ (nodes : Slice α) (s : σ) (i : Nat),
    nodeValue (session next back cs nodes s).2.1 i =
      (nodeValue nodes i).map fun old => (lastWrite cs i).getD old := by
  induction cs with
  | nil => intro nodes s i; simp [session, lastWrite]
  | cons c cs ih =>
    intro nodes s i
    cases c with
    | ask a =>
      simp only [session, ih]
      rfl
    | replace j v =>
      simp only [session, ih, replace_value]
      by_cases hj : j = i
      · subst hj
        have : lastWrite (.replace j v :: cs) j = some ((lastWrite cs j).getD v) := by
          simp only [lastWrite, List.filterMap_cons, if_true, List.getLast?_cons]
        simp only [if_true, Option.map_map, this]
        rfl
      · have : lastWrite (.replace j v :: cs) i = lastWrite cs i := by
          simp [lastWrite, hj]
        rw [if_neg (fun e => hj e.symm), this]

end Syntree
