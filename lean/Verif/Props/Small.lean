import Verif.Proof.Listing
import Verif.Proof.Made
import Verif.Proof.Bridge
import Verif.Spec.Print
import Verif.Props.Misuse
import Verif.Props.Spans

/-! # C40 (`replace`), C45 (pointers), C46 (printing) -/

namespace Syntree

variable {α : Type} {fl : Flavor}

open Forest

/-! ## C40 -/

theorem nodeReplace_get {nodes : Slice α} {n : Nat} (v : α) (m : Nat) :
    (nodeReplace nodes n v).1[m]? =
      nodes[m]?.map (fun l => if m = n then { l with data := v } else l) := by
  unfold nodeReplace
  cases h : nodes[n]? with
  | none =>
    simp only
    cases h' : nodes[m]? with
    | none => rfl
    | some l =>
      have : m ≠ n := by rintro rfl; rw [h] at h'; cases h'
      simp [this]
  | some l =>
    simp only [List.getElem?_set]
    have hlt := (List.getElem?_eq_some_iff.1 h).1
    by_cases e : n = m
    · subst e; rw [if_pos rfl, if_pos hlt, h]; simp
    · rw [if_neg e]
      have e' : ¬ m = n := fun q => e q.symm
      cases h' : nodes[m]? with
      | none => rfl
      | some l' => simp [e']

theorem nodeReplace_length {nodes : Slice α} {n : Nat} (v : α) :
    (nodeReplace nodes n v).1.length = nodes.length := by
  unfold nodeReplace
  cases nodes[n]? <;> simp

/-- C40: `n.replace(v)` returns the old value of `n`; afterwards `n.value()` is `v` and every other
node has its old value. -/
theorem C40_replace_value (nodes : Slice α) {n : Nat} (hn : n < nodes.length) (v : α) :
    (nodeReplace nodes n v).2 = nodeValue nodes n ∧
    nodeValue (nodeReplace nodes n v).1 n = some v ∧
    ∀ m, m ≠ n → nodeValue (nodeReplace nodes n v).1 m = nodeValue nodes m := by
  have hl : nodes[n]? = some nodes[n] := List.getElem?_eq_getElem hn
  refine ⟨?_, ?_, ?_⟩
  · simp [nodeReplace, nodeValue, hl]
  · simp [nodeValue, nodeReplace_get, hl]
  · intro m hm
    simp only [nodeValue, nodeReplace_get, hm, if_false]
    cases nodes[m]? <;> rfl

theorem replace_links {nodes : Slice α} {n : Nat} (v : α) {β : Type} (f : Links α → β)
    (hf : ∀ l d, f { l with data := d } = f l) (m : Nat) :
    (nodeReplace nodes n v).1[m]?.map f = nodes[m]?.map f := by
  rw [nodeReplace_get]
  cases nodes[m]? with
  | none => rfl
  | some l => simp only [Option.map_some]; split <;> simp [hf]

theorem replace_nodeAt {nodes : Slice α} {n : Nat} (v : α) (m : Nat) :
    nodeAt (nodeReplace nodes n v).1 m = nodeAt nodes m := by
  unfold nodeAt
  rw [nodeReplace_get]
  cases nodes[m]? <;> rfl

theorem replace_follow {nodes : Slice α} {n : Nat} (v : α) (f : Links α → Option Nat)
    (hf : ∀ l d, f { l with data := d } = f l) (m : Nat) :
    follow (nodeReplace nodes n v).1 m f = follow nodes m f := by
  unfold follow
  rw [nodeReplace_get]
  cases nodes[m]? with
  | none => rfl
  | some l =>
    simp only [Option.map_some]
    have : f (if m = n then { l with data := v } else l) = f l := by split <;> simp [hf]
    rw [this]
    cases f l with
    | none => rfl
    | some i => exact replace_nodeAt v i

theorem replace_walkEvents {nodes : Slice α} {n : Nat} (v : α) :
    WalkEvents.next (nodeReplace nodes n v).1 = WalkEvents.next nodes := by
  funext w
  unfold WalkEvents.next
  cases w.node with
  | none => rfl
  | some p =>
    obtain ⟨m, e⟩ := p
    simp only [nodeReplace_get]
    cases nodes[m]? with
    | none => rfl
    | some l =>
      simp only [Option.map_some]
      by_cases hm : m = n
      · simp only [if_pos hm]; rfl
      · simp only [if_neg hm]

theorem replace_children {nodes : Slice α} {n : Nat} (v : α) :
    Children.next (nodeReplace nodes n v).1 = Children.next nodes := by
  funext c
  unfold Children.next
  cases c.first with
  | none => rfl
  | some m =>
    simp only [nodeReplace_get]
    cases nodes[m]? with
    | none => rfl
    | some l =>
      simp only [Option.map_some]
      by_cases hm : m = n
      · simp only [if_pos hm]
      · simp only [if_neg hm]

theorem replace_childrenBack {nodes : Slice α} {n : Nat} (v : α) :
    Children.nextBack (nodeReplace nodes n v).1 = Children.nextBack nodes := by
  funext c
  unfold Children.nextBack
  cases c.last with
  | none => rfl
  | some m =>
    simp only [nodeReplace_get]
    cases nodes[m]? with
    | none => rfl
    | some l =>
      simp only [Option.map_some]
      by_cases hm : m = n
      · simp only [if_pos hm]
      · simp only [if_neg hm]

theorem replace_hasChildren {nodes : Slice α} {n : Nat} (v : α) (m : Nat) :
    hasChildren (nodeReplace nodes n v).1 m = hasChildren nodes m := by
  unfold hasChildren
  rw [nodeReplace_get]
  cases nodes[m]? with
  | none => rfl
  | some l => simp only [Option.map_some]; split <;> rfl

/-- C40: after `n.replace(v)` every span and every link of every node is the same as before, and so
is every iterator: each of them is the same function from the state of the iterator to the next
state and item. -/
theorem C40_replace_frame (nodes : Slice α) (n : Nat) (v : α) (ik : IndexKind) :
    let nodes' := (nodeReplace nodes n v).1
    nodes'.length = nodes.length ∧
    (∀ m, nodeSpan nodes' m = nodeSpan nodes m ∧ nodeRange ik nodes' m = nodeRange ik nodes m ∧
      hasChildren nodes' m = hasChildren nodes m ∧ nodeIsEmpty nodes' m = nodeIsEmpty nodes m ∧
      nodeParent nodes' m = nodeParent nodes m ∧ nodePrev nodes' m = nodePrev nodes m ∧
      nodeNext nodes' m = nodeNext nodes m ∧ nodeFirst nodes' m = nodeFirst nodes m ∧
      nodeLast nodes' m = nodeLast nodes m ∧ nodeChildren nodes' m = nodeChildren nodes m) ∧
    Children.next nodes' = Children.next nodes ∧ Children.nextBack nodes' = Children.nextBack nodes ∧
    Siblings.next nodes' = Siblings.next nodes ∧ Ancestors.next nodes' = Ancestors.next nodes ∧
    WalkEvents.next nodes' = WalkEvents.next nodes ∧ Walk.next nodes' = Walk.next nodes ∧
    WithDepths.next nodes' = WithDepths.next nodes ∧ Inside.next nodes' = Inside.next nodes ∧
    (∀ (σ : Type) (next : NextFn σ Nat), SkipTokens.next nodes' next = SkipTokens.next nodes next) := by
  intro nodes'
  have hlen : nodes'.length = nodes.length := nodeReplace_length v
  have hp : ∀ m, nodeParent nodes' m = nodeParent nodes m :=
    replace_follow v _ (fun _ _ => rfl)
  have hn : ∀ m, nodeNext nodes' m = nodeNext nodes m :=
    replace_follow v _ (fun _ _ => rfl)
  have hw : WalkEvents.next nodes' = WalkEvents.next nodes := replace_walkEvents v
  have hh : hasChildren nodes' = hasChildren nodes := funext (replace_hasChildren v)
  refine ⟨hlen, ?_, replace_children v, replace_childrenBack v, ?_, ?_, hw, ?_, ?_, ?_, ?_⟩
  · intro m
    refine ⟨?_, ?_, replace_hasChildren v m, ?_, hp m, ?_, hn m, ?_, ?_, ?_⟩
    · exact replace_links v (·.span) (fun _ _ => rfl) m
    · exact replace_links v (fun l => l.span.range ik) (fun _ _ => rfl) m
    · unfold nodeIsEmpty
      simp only [nodes', nodeReplace_get]
      cases nodes[m]? with
      | none => rfl
      | some l => simp only [Option.map_some]; split <;> rfl
    · exact replace_follow v _ (fun _ _ => rfl) m
    · exact replace_follow v _ (fun _ _ => rfl) m
    · exact replace_follow v _ (fun _ _ => rfl) m
    · unfold nodeChildren
      simp only [nodes', nodeReplace_get]
      cases nodes[m]? with
      | none => rfl
      | some l => simp only [Option.map_some]; split <;> rfl
  · funext s; cases s <;> simp [Siblings.next, hn]
  · funext s; cases s <;> simp [Ancestors.next, hp]
  · have : ∀ fuel, Walk.nextLoop nodes' fuel = Walk.nextLoop nodes fuel := by
      intro fuel
      induction fuel with
      | zero => rfl
      | succ fuel ih => funext w; simp only [Walk.nextLoop, hw, ih]
    unfold Walk.next; rw [hlen, this]
  · have : ∀ fuel, WithDepths.nextLoop nodes' fuel = WithDepths.nextLoop nodes fuel := by
      intro fuel
      induction fuel with
      | zero => rfl
      | succ fuel ih => funext w; simp only [WithDepths.nextLoop, hw, ih]
    unfold WithDepths.next; rw [hlen, this]
  · have : ∀ fuel, Inside.nextLoop nodes' fuel = Inside.nextLoop nodes fuel := by
      intro fuel
      induction fuel with
      | zero => rfl
      | succ fuel ih => funext w; simp only [Inside.nextLoop, hw, ih]
    unfold Inside.next; rw [hlen, this]
  · intro σ next
    unfold SkipTokens.next
    rw [hlen, hh]

/-- C40 as a client sees it: listing the tree afterwards gives the same list, except for the value
of node `n`. -/
theorem C40_replace_listing {t : Tree α} {n : Nat} (hn : n < t.len) (v : α) :
    (t.replace n v).2 = nodeValue t.nodes n ∧
    (t.replace n v).1.listing = t.listing.map fun l =>
      l.map fun p => if p.2.1 = n then (p.1, p.2.1, some v, p.2.2.2) else p := by
  have hv := C40_replace_value t.nodes hn v
  have hf := C40_replace_frame t.nodes n v .empty
  refine ⟨hv.1, ?_⟩
  unfold Tree.listing Tree.replace
  have hlen : Tree.len { t with nodes := (nodeReplace t.nodes n v).1 } = t.len := hf.1
  rw [hlen]
  have hwd : WithDepths.next (nodeReplace t.nodes n v).1 = WithDepths.next t.nodes :=
    hf.2.2.2.2.2.2.2.2.1
  simp only [hwd]
  have hb : (fun p : Int × Nat => (p.1, p.2, nodeValue (nodeReplace t.nodes n v).1 p.2,
      nodeSpan (nodeReplace t.nodes n v).1 p.2)) =
      (fun p : Int × Nat × Option α × Option Span =>
        if p.2.1 = n then (p.1, p.2.1, some v, p.2.2.2) else p) ∘
      (fun p : Int × Nat => (p.1, p.2, nodeValue t.nodes p.2, nodeSpan t.nodes p.2)) := by
    funext p
    simp only [Function.comp]
    rw [(hf.2.1 p.2).1]
    by_cases hp : p.2 = n
    · rw [if_pos hp, hp, hv.2.1]
    · rw [if_neg hp, hv.2.2 _ hp]
  rw [hb]
  have hmap : ∀ {σ β γ δ : Type} (next : NextFn σ β) (f : β → γ) (g : γ → δ) (fuel : Nat) (s : σ),
      forLoop next (g ∘ f) fuel s = (forLoop next f fuel s).map (List.map g) := by
    intro σ β γ δ next f g fuel
    induction fuel with
    | zero => intro s; rfl
    | succ fuel ih =>
      intro s
      simp only [forLoop]
      rcases next s with ⟨s1, o⟩
      cases o with
      | none => rfl
      | diverge => rfl
      | some x =>
        simp only [ih]
        cases forLoop next f fuel s1 <;> rfl
  exact hmap _ _ _ _ _

example := C40_replace_listing (t := lenTree) (n := 1) (by decide) 9

/-! ## C45 -/

/-- C45: `Pointer::new(v)` is `Some` exactly if `v < 2 ^ w - 1`. -/
theorem C45_new_some_iff (w v : Nat) : (RawPtr.new w v).isSome = true ↔ v < 2 ^ w - 1 := by
  rw [RawPtr.new_eq]; split <;> simp [*]

theorem raw_get {w v usz : Nat} (h : v < 2 ^ w - 1) (hu : v < 2 ^ usz) :
    (RawPtr.mk (w := w) (v + 1)).get usz = v := by
  have hp : 0 < 2 ^ w := Nat.two_pow_pos w
  have : v + 1 + (2 ^ w - 1) = v + 2 ^ w := by omega
  simp only [RawPtr.get, this, Nat.add_mod_right]
  rw [Nat.mod_eq_of_lt (a := v) (b := 2 ^ w) (by omega), Nat.mod_eq_of_lt hu]

/-- C45: a pointer made from a `usize` value `v` is a valid non-zero value of `w` bits and gives `v`
back. -/
theorem C45_round_trip {w v usz : Nat} {p : RawPtr w} (hv : v < 2 ^ usz)
    (h : RawPtr.new w v = some p) : p.Valid ∧ p.get usz = v := by
  have hs := (C45_new_some_iff w v).1 (by rw [h]; rfl)
  rw [RawPtr.new_eq, if_pos hs] at h
  cases h
  exact ⟨⟨Nat.succ_pos _, by show v + 1 < _; omega⟩, raw_get hs hv⟩

/-- C45: different values give different pointers. -/
theorem C45_injective {w v v' usz : Nat} {p : RawPtr w} (hv : v < 2 ^ usz) (hv' : v' < 2 ^ usz)
    (h : RawPtr.new w v = some p) (h' : RawPtr.new w v' = some p) : v = v' :=
  (C45_round_trip hv h).2.symm.trans (C45_round_trip hv' h').2

/-- C45: every valid pointer comes from a value, and if that value is a `usize`, `get` returns it.
So pointers and values below `2 ^ w - 1` are the same thing. -/
theorem C45_surjective {w : Nat} {p : RawPtr w} (hp : p.Valid) :
    RawPtr.new w (p.raw - 1) = some p := by
  obtain ⟨h1, h2⟩ := hp
  rw [RawPtr.new_eq, if_pos (by omega)]
  cases p
  simp only [Option.some.injEq, RawPtr.mk.injEq] at *
  omega

/-- C45: the default pointer is the one of value zero (for every width of at least one bit). -/
theorem C45_default {w usz : Nat} (hw : 1 ≤ w) :
    (RawPtr.default w).Valid ∧ RawPtr.new w 0 = some (RawPtr.default w) ∧
      (RawPtr.default w).get usz = 0 := by
  have : 2 ^ 1 ≤ 2 ^ w := Nat.pow_le_pow_right (by omega) hw
  have h0 : RawPtr.new w 0 = some (RawPtr.default w) := by
    rw [RawPtr.new_eq, if_pos (by omega)]; rfl
  exact ⟨(C45_round_trip (usz := 1) (by simp) h0).1, h0, (C45_round_trip (Nat.two_pow_pos _) h0).2⟩

/-- C45: `id()` of a node, computed from addresses and with the unchecked constructor, is always the
same pointer as the checked constructor gives for the position of the node — for every builder,
whatever calls were made (misuse of checkpoints and failed calls included), wherever the slice lies
in memory and however large its elements are. -/
theorem C45_id_is_checked (ops : List (Op α)) {s : Sys α} {os : List (Except Err Out)}
    (hs : Sys.init.run fl ops = (s, os)) {i : Nat} (hi : i < s.b.tree.len) (base size usz : Nat)
    (hsize : 0 < size) (hu : s.b.tree.len ≤ 2 ^ usz) :
    let p := idFromAddress fl.width base size (base + i * size)
    p.Valid ∧ RawPtr.new fl.width i = some p ∧ p.get usz = i := by
  have hcap := (C26_capacity_exact fl ops hs).2.1
  have e : idFromAddress fl.width base size (base + i * size) = ⟨i + 1⟩ := by
    unfold idFromAddress RawPtr.newUnchecked
    have h1 : (base + i * size - base) / size = i := by
      rw [Nat.add_sub_cancel_left]
      exact Nat.mul_div_cancel i hsize
    rw [h1, Nat.mod_eq_of_lt (a := i) (by omega), Nat.mod_eq_of_lt (by omega)]
  have h0 : RawPtr.new fl.width i = some ⟨i + 1⟩ := by
    rw [RawPtr.new_eq, if_pos (by omega)]
  rw [e]
  exact ⟨(C45_round_trip (usz := usz) (by omega) h0).1, h0, (C45_round_trip (by omega) h0).2⟩

theorem idFromAddress_checked {w i : Nat} (hi : i < 2 ^ w - 1) {base size usz : Nat}
    (hsize : 0 < size) (hu : i < 2 ^ usz) :
    let p := idFromAddress w base size (base + i * size)
    p.Valid ∧ RawPtr.new w i = some p ∧ p.get usz = i := by
  have e : idFromAddress w base size (base + i * size) = ⟨i + 1⟩ := by
    unfold idFromAddress RawPtr.newUnchecked
    have h1 : (base + i * size - base) / size = i := by
      rw [Nat.add_sub_cancel_left]
      exact Nat.mul_div_cancel i hsize
    rw [h1, Nat.mod_eq_of_lt (a := i) (by omega), Nat.mod_eq_of_lt (by omega)]
  have h0 : RawPtr.new w i = some ⟨i + 1⟩ := by
    rw [RawPtr.new_eq, if_pos (by omega)]
  rw [e]
  exact ⟨(C45_round_trip (usz := usz) hu h0).1, h0, (C45_round_trip hu h0).2⟩

/-- C45: the same for every builder of every program: any number of builders, clones, and checkpoints
passed to builders they do not belong to. -/
theorem C45_id_world (ops : List (WOp α)) {w : World α} {os : List (Option (Except Err Out))}
    (hw : World.init.run ops = (w, os)) {k : Nat} {b : Builder α}
    (hb : w.builders[k]? = some (fl, b)) {i : Nat} (hi : i < b.tree.len) (base size usz : Nat)
    (hsize : 0 < size) (hu : b.tree.len ≤ 2 ^ usz) :
    let p := idFromAddress fl.width base size (base + i * size)
    p.Valid ∧ RawPtr.new fl.width i = some p ∧ p.get usz = i := by
  obtain ⟨sts, h, _⟩ := GoodW.init.run ops
  rw [hw] at h
  obtain ⟨st, hst, hg⟩ := h.get hb
  have := hg.wf.cap
  unfold Tree.len at hi hu
  exact idFromAddress_checked (by simp only at this; omega) hsize (by omega)

theorem ModState.emit_len {nodes : Slice α} {st st' : ModState α} {nodeId node : Nat} {first : Bool}
    (h : ModState.emit fl nodes st nodeId node first = .ok st') :
    st'.output.len = st.output.len + 1 := by
  have hm : ∀ (t : Tree α) (o : Option Nat) (f : Links α → Links α),
      (t.modifyOpt o f).len = t.len := by
    intro t o f
    unfold Tree.len
    rw [modifyOpt_nodes]
    cases o <;> simp
  unfold ModState.emit at h
  cases hn : nodes[node]? with
  | none => simp [hn] at h
  | some links =>
    simp only [hn] at h
    split at h
    · simp at h
    · rename_i out cursor span hs
      simp only [Except.ok.injEq] at h
      subst h
      simp only [Tree.push, Tree.len, List.length_append, List.length_singleton]
      have h1 := hm
      unfold Tree.len at h1
      rw [h1]
      have h2 : ∀ (t : Tree α) (i : TreeIndex), (t.pushIndex fl i).nodes = t.nodes := by
        intro t i; unfold Tree.pushIndex; split <;> rfl
      split at hs
      · split at hs
        · simp at hs
        · simp only [Except.ok.injEq, Prod.mk.injEq] at hs
          rw [← hs.1, h2]
          repeat' split
          all_goals simp only [h1]
      · simp only [Except.ok.injEq, Prod.mk.injEq] at hs
        rw [← hs.1]
        repeat' split
        all_goals simp only [h1]

theorem ModState.loop_cap {changes : List Nat} {nodes : Slice α} {fuel : Nat} {st st' : ModState α}
    (h : ModState.loop fl changes nodes fuel st = .ok st')
    (hc : st.output.len ≤ 2 ^ fl.width - 1) : st'.output.len ≤ 2 ^ fl.width - 1 := by
  induction fuel generalizing st with
  | zero => simp [ModState.loop] at h
  | succ fuel ih =>
    unfold ModState.loop at h
    split at h
    · simp only [Except.ok.injEq] at h; subst h; exact hc
    · split at h
      · simp at h
      · rename_i nodeId hp
        have hlt : st.output.len < 2 ^ fl.width - 1 := by
          apply (C45_new_some_iff _ _).1
          unfold ptrNew at hp
          cases hr : RawPtr.new fl.width st.output.len with
          | none => rw [hr] at hp; simp at hp
          | some _ => rfl
        split at h
        · split at h
          · exact ih h hc
          · split at h
            · simp at h
            · rename_i st2 he
              have := ModState.emit_len he
              exact ih h (by rw [this]; simp only; omega)
        · split at h
          · simp at h
          · rename_i st2 he
            have := ModState.emit_len he
            exact ih h (by rw [this]; omega)

/-- C45: the same for every tree that `modify` returns, for every input. -/
theorem C45_id_after_modify {t t' : Tree α} {c : ChangeSet} (h : c.modify fl t = .ok t') {i : Nat}
    (hi : i < t'.len) (base size usz : Nat) (hsize : 0 < size) (hu : t'.len ≤ 2 ^ usz) :
    let p := idFromAddress fl.width base size (base + i * size)
    p.Valid ∧ RawPtr.new fl.width i = some p ∧ p.get usz = i := by
  unfold ChangeSet.modify at h
  dsimp only at h
  split at h
  · simp at h
  · rename_i st hl
    simp only [Except.ok.injEq] at h
    subst h
    have := ModState.loop_cap hl (Nat.zero_le _)
    unfold Tree.len at this hi hu
    simp only at this hi hu
    exact idFromAddress_checked (by omega) hsize (by omega)

/-- A clone, and a checkpoint of the original passed to it. -/
example : ∃ b, (World.init.run [.new Flavor.default, .call 0 (.open 1), .call 0 .checkpoint, .clone 0,
    .call 0 .close, .call 1 (.token (2 : Nat) 3), .call 1 (.closeAt 0 4)]).1.builders[1]? =
      some (Flavor.default, b) ∧ 2 < b.tree.len := ⟨_, rfl, by decide⟩

/-- A copy that uses up all pointers. -/
example : ∃ t', ChangeSet.modify (α := Nat) ⟨.bits 32, 2, true⟩ ⟨[]⟩
    ⟨[⟨1, ⟨0, 0⟩, none, none, some 1, none, none⟩, ⟨2, ⟨0, 0⟩, none, some 0, some 2, none, none⟩,
      ⟨3, ⟨0, 0⟩, none, some 1, none, none, none⟩], ⟨0, 0⟩, [], some 0, some 2⟩ = .ok t' ∧
    2 < t'.len := ⟨_, rfl, by decide⟩

/-- The largest value of a `u8` pointer, and the first value that does not fit. -/
example : RawPtr.new 8 254 = some ⟨255⟩ ∧ RawPtr.new 8 255 = none ∧ RawPtr.new 8 256 = none := by
  decide

/-- A builder whose two-bit pointers are used up; its last node has the largest possible id. -/
example := C45_id_is_checked (fl := ⟨.bits 32, 2, true⟩)
  [.tokenEmpty 1, .tokenEmpty 2, .tokenEmpty 3, .tokenEmpty (4 : Nat)] rfl (i := 2) (by decide)
  1000 24 64 (by decide) (by decide)

/-! ## C46 -/

/-- All positions of a nested list in document order: depth, element, whether it is childless. -/
def flagged (d : Nat) : Forest (Lab α) → List (Nat × Lab α × Bool)
  | .nil => []
  | .cons x k r => (d, x, k.isNil) :: (flagged (d + 1) k ++ flagged d r)

theorem linesOf_eq (line : Nat → Lab α → Bool → String) (d : Nat) (F : Forest (Lab α)) :
    linesOf line d F = (flagged d F).map fun p => line p.1 p.2.1 p.2.2 := by
  induction F generalizing d with
  | nil => rfl
  | cons x k r ihk ihr => simp [linesOf, flagged, ihk, ihr]

theorem depths_flagged (d : Nat) (F : Forest (Lab α)) :
    F.depths d = (flagged d F).map fun p => (p.1, p.2.1) := by
  induction F generalizing d with
  | nil => rfl
  | cons x k r ihk ihr => simp [depths, flagged, ihk, ihr]

theorem mem_flagged_aux {F : Forest (Lab α)} (G : Forest (Lab α)) (x : Lab α) (b : Bool) (D d : Nat)
    (hx : (d, x, b) ∈ flagged D G)
    (anc : List (Lab α)) (left : Forest (Lab α))
    (hG : ∀ l y k r, G = l ++ .cons y k r → Loc F anc (left ++ l) y k r) :
    ∃ anc left kids right, kids.isNil = b ∧ Loc F anc left x kids right := by
  induction G generalizing anc left D with
  | nil => simp [flagged] at hx
  | cons y k r ihk ihr =>
    simp only [flagged, List.mem_cons, List.mem_append, Prod.mk.injEq] at hx
    rcases hx with ⟨_, rfl, rfl⟩ | hx | hx
    · have := hG .nil x k r rfl
      exact ⟨_, _, _, _, rfl, this⟩
    · refine ihk (D + 1) hx (y :: anc) .nil ?_
      intro l z k' r' e
      exact .child (hG .nil y k r rfl) e
    · refine ihr D hx anc (left ++ .cons y k .nil) ?_
      intro l z k' r' e
      have := hG (.cons y k l) z k' r' (by rw [e]; rfl)
      rw [append_assoc]; exact this

theorem mem_flagged {F : Forest (Lab α)} {d : Nat} {x : Lab α} {b : Bool}
    (hx : (d, x, b) ∈ flagged 0 F) :
    ∃ anc left kids right, kids.isNil = b ∧ Loc F anc left x kids right :=
  mem_flagged_aux F x b 0 d hx [] .nil (fun _ _ _ _ e => .root (by rw [e]; rfl))

theorem Represents.printWithLookup {g : Bool} {t : Tree α} {F : Forest (Lab α)}
    (h : Represents g t F) (showIndex : Nat → String) (debugData : α → String)
    (debugStr : String → String) (source : Span → Option String) :
    t.printWithLookup showIndex debugData debugStr source =
      some (linesOf (lineOf showIndex debugData debugStr source) 0 F) := by
  unfold Tree.printWithLookup
  rw [forLoop_of_yields h.with_depths]
  · rw [linesOf_eq, depths_flagged, List.map_map, List.map_map]
    congr 1
    apply List.map_congr_left
    rintro ⟨d, x, b⟩ hx
    obtain ⟨anc, left, kids, right, hb, hl⟩ := mem_flagged hx
    obtain ⟨l, hlr, hx'⟩ := hl.links h.root
    simp only [Function.comp, printLine, hx', mkLinks, lineOf, Span.display]
    have e : ((d : Int) * 2).toNat = 2 * d := by omega
    rw [e, ← hb]
    cases kids with
    | nil =>
      simp only [headId_nil, Option.isSome_none, isNil_nil, if_true]
      cases source x.span <;> simp [String.append_assoc]
    | cons y k r => simp [String.append_assoc]
  · rw [List.length_map]
    have : (F.depths 0).length = F.preorder.length := by
      rw [← depths_snd 0 F, List.length_map]
    rw [this, preorder_length]
    have := h.size
    omega

/-- C46: `print_with_source` writes exactly one line per node, in document order, indented by twice
its depth, with value and span; nodes with children show no source, childless ones the part of the
source that `str::get` returns for their range, or a plus sign if it returns nothing. -/
theorem C46_print_with_source {t : Tree α} {F : Forest (Lab α)}
    (h : Made fl t F) (showIndex : Nat → String) (debugData : α → String)
    (debugStr : String → String) (sourceGet : Nat × Nat → Option String) :
    t.printWithSource fl.ik showIndex debugData debugStr sourceGet =
      some (linesOf (lineOf showIndex debugData debugStr
        (fun sp => sourceGet (fl.ik.asUsize sp.start, fl.ik.asUsize sp.stop))) 0 F) :=
  h.represents.printWithLookup ..

/-- C46: `print` writes the same with a plus sign for every childless node. -/
theorem C46_print {t : Tree α} {F : Forest (Lab α)}
    (h : Made fl t F) (showIndex : Nat → String) (debugData : α → String)
    (debugStr : String → String) :
    t.print showIndex debugData debugStr =
      some (linesOf (lineOf showIndex debugData debugStr (fun _ => none)) 0 F) :=
  h.represents.printWithLookup ..

/-- C46: the number of lines is `len()`. -/
theorem C46_line_count {t : Tree α} {F : Forest (Lab α)}
    (h : Made fl t F) (showIndex : Nat → String) (debugData : α → String)
    (debugStr : String → String) {l : List String}
    (hl : t.print showIndex debugData debugStr = some l) : l.length = t.len := by
  rw [C46_print h] at hl
  cases hl
  rw [linesOf_eq, List.length_map]
  have : (flagged 0 F).length = F.preorder.length := by
    rw [← depths_snd 0 F, depths_flagged, List.length_map, List.length_map]
  rw [this, preorder_length]
  exact h.represents.size

/-- A concrete tree and what is printed for it. -/
example : ∃ t F, Built Flavor.default [.open 7, .token 8 2, .close, .tokenEmpty (9 : Nat)] t F ∧
    linesOf (lineOf toString toString id (fun sp => if sp.start = 0 then some "ab" else none)) 0 F =
      ["7@0..2\n", "  8@0..2 ab\n", "9@2..2 +\n"] :=
  ⟨_, _, ⟨_, _, rfl, rfl, rfl⟩, by decide⟩

end Syntree
