import Verif.Proof.Declared
import Verif.Props.Storeless
import Verif.Props.Misuse

/-!
# C91: flavors declared with `flavor!`
-/

namespace Syntree

variable {α : Type}

/-- C91: which declarations compile, and what they stand for: `type Index` comes first and is `u32`,
`usize` or `Empty`; then, in this order, each of them or not, `type Width`, one of the unsigned
integer types (`usize` if left out), `type Storage`, which can be anything, and `type Indexes`, which
is `Vec` (only with the feature `alloc`) or `EmptyVec` (if left out: `Vec` with the feature `alloc`,
`EmptyVec` without). The node storage is `Vec` with the feature `alloc` and `EmptyVec` without it. -/
theorem C91_declarations (word : Nat) (alloc : Bool) (d : Decl) (r : Declared) :
    d.expand word alloc = some r ↔
      ∃ i w s x, d = (.index, i) :: (optLine .width w ++ (optLine .storage s ++ optLine .indexes x)) ∧
        ((i = .u32 ∧ r.fl.ik = .bits 32) ∨ (i = .usize ∧ r.fl.ik = .bits word) ∨
          (i = .empty ∧ r.fl.ik = .empty)) ∧
        ((w = some .u8 ∧ r.fl.width = 8) ∨ (w = some .u16 ∧ r.fl.width = 16) ∨
          (w = some .u32 ∧ r.fl.width = 32) ∨ (w = some .u64 ∧ r.fl.width = 64) ∨
          (w = some .u128 ∧ r.fl.width = 128) ∨ (w = some .usize ∧ r.fl.width = word) ∨
          (w = none ∧ r.fl.width = word)) ∧
        ((x = some .vec ∧ alloc = true ∧ r.fl.keepIdx = true) ∨
          (x = some .emptyVec ∧ r.fl.keepIdx = false) ∨ (x = none ∧ r.fl.keepIdx = alloc)) ∧
        r.keep = alloc := by
  constructor
  · intro h
    unfold Decl.expand at h
    split at h
    · simp at h
    · rename_i b hb
      obtain ⟨i, w, s, x⟩ := b
      refine ⟨i, w, s, x, (bound_iff d _).1 hb, ?_⟩
      dsimp only at h
      split at h
      · simp at h
      · rename_i ik hi
        split at h
        · simp at h
        · rename_i width hwd
          split at h
          · simp at h
          · rename_i kx hx
            simp only [Option.some.injEq] at h
            subst h
            refine ⟨?_, ?_, ?_, rfl⟩
            · cases i <;> simp_all [Ty.indexKind]
            · cases w with
              | none => simp_all [Ty.bits]
              | some w => cases w <;> simp_all [Ty.bits]
            · cases x with
              | none => simp_all [Ty.keeps]
              | some x => cases x <;> cases alloc <;> simp_all [Ty.keeps]
  · rintro ⟨i, w, s, x, hd, hi, hw, hx, hk⟩
    obtain ⟨⟨ik, width, keepIdx⟩, keep⟩ := r
    simp only at hi hw hx hk
    subst hk
    unfold Decl.expand
    rw [(bound_iff d ⟨i, w, s, x⟩).2 hd]
    rcases hi with ⟨rfl, rfl⟩ | ⟨rfl, rfl⟩ | ⟨rfl, rfl⟩ <;>
    rcases hw with ⟨rfl, rfl⟩ | ⟨rfl, rfl⟩ | ⟨rfl, rfl⟩ | ⟨rfl, rfl⟩ | ⟨rfl, rfl⟩ | ⟨rfl, rfl⟩ |
      ⟨rfl, rfl⟩ <;>
    rcases hx with ⟨rfl, rfl, rfl⟩ | ⟨rfl, rfl⟩ | ⟨rfl, rfl⟩ <;> rfl

/-- The two examples in the documentation of the macro (`src/flavor.rs:62-75`), and one with the lines
in another order. -/
example : Decl.expand 64 true [(.index, .empty), (.indexes, .emptyVec)] =
      some ⟨⟨.empty, 64, false⟩, true⟩ ∧
    Decl.expand 64 true [(.index, .u32), (.width, .u32)] = some ⟨⟨.bits 32, 32, true⟩, true⟩ ∧
    Decl.expand 64 true [(.width, .u32), (.index, .u32)] = none := by
  refine ⟨(C91_declarations ..).2 ⟨.empty, none, none, some .emptyVec, rfl, by simp, by simp, by simp, rfl⟩,
    (C91_declarations ..).2 ⟨.u32, some .u32, none, none, rfl, by simp, by simp, by simp, rfl⟩, rfl⟩

/-- C91: a line `type Storage = ..;` has no effect, whatever the type is: it is accepted, and the
flavor is the one declared without it. -/
theorem C91_storage_ignored (word : Nat) (alloc : Bool) (i : Ty) (w x : Option Ty) (s : Ty) :
    Decl.expand word alloc ((.index, i) :: (optLine .width w ++ ((.storage, s) :: optLine .indexes x))) =
      Decl.expand word alloc ((.index, i) :: (optLine .width w ++ optLine .indexes x)) := by
  cases w <;> cases x <;> rfl

example : Decl.expand 64 true [(.index, .u32), (.storage, .other)] =
    Decl.expand 64 true [(.index, .u32)] := C91_storage_ignored 64 true .u32 none none .other

/-- C91: leaving out `type Width` is the same as writing `usize`; with the feature `alloc`, leaving
out `type Indexes` is the same as writing `Vec`, without it, the same as writing `EmptyVec`. -/
theorem C91_defaults (word : Nat) (alloc : Bool) (i : Ty) (w s x : Option Ty) :
    Decl.expand word alloc ((.index, i) :: (optLine .storage s ++ optLine .indexes x)) =
      Decl.expand word alloc
        ((.index, i) :: (.width, .usize) :: (optLine .storage s ++ optLine .indexes x)) ∧
    Decl.expand word alloc ((.index, i) :: (optLine .width w ++ optLine .storage s)) =
      Decl.expand word alloc ((.index, i) :: (optLine .width w ++ (optLine .storage s ++
        [(.indexes, if alloc then .vec else .emptyVec)]))) := by
  constructor
  · cases s <;> cases x <;> rfl
  · cases w <;> cases s <;> cases alloc <;> rfl

/-- `FlavorDefault`, on a machine with words of 64 bits; its `type Width` could be left out. -/
example : Decl.default.expand 64 true = some ⟨Flavor.default, true⟩ ∧
    Decl.expand 64 true [(.index, .u32)] = some ⟨Flavor.default, true⟩ :=
  ⟨rfl, ((C91_defaults 64 true .u32 none none none).1).trans rfl⟩

/-- C91: how much fits into a tree of a declared flavor, with the feature `alloc`. After any history
of calls, the next `open` succeeds exactly if there are fewer than `2 ^ bits - 1` nodes, `bits` being
the width declared; a non-empty token is refused if the text would not fit into the index declared,
and otherwise exactly if there are no more pointers. -/
theorem C91_limits (word : Nat) (d : Decl) {r : Declared} (h : d.expand word true = some r)
    (ops : List (Op α)) {s : Sys α} {os : List (Except Err Out)}
    (hs : Sys.init.runK r.keep r.fl ops = (s, os)) :
    s.b.tree.len = (os.filterMap idOf).length ∧
    (∀ v, (s.stepK r.keep r.fl (.open v)).2 = if s.b.tree.len < 2 ^ r.fl.width - 1 then
      .ok (.id s.b.tree.len) else .error .overflow) ∧
    (∀ bits, r.fl.ik = .bits bits → ∀ v n, n ≠ 0 →
      ((s.stepK r.keep r.fl (.token v n)).2 = .error .overflow ↔
        2 ^ bits ≤ s.b.cursor + n ∨ s.b.tree.len = 2 ^ r.fl.width - 1)) := by
  have hk : r.keep = true := by
    obtain ⟨_, _, _, _, _, _, _, _, hk⟩ := (C91_declarations word true d r).1 h
    exact hk
  rw [hk] at hs ⊢
  rw [runK_true] at hs
  simp only [stepK_true]
  obtain ⟨c1, _, c3, _⟩ := C26_capacity_exact r.fl ops hs
  refine ⟨c1, fun v => ?_, fun bits hb v n hn => ?_⟩
  · rw [c1]; exact c3 (.open v) rfl
  · obtain ⟨⟨ik, width, keepIdx⟩, keep⟩ := r
    simp only at hb hs ⊢
    subst hb
    have e : (Sys.init.run ⟨.bits bits, width, keepIdx⟩ ops).1 = s := by rw [hs]
    obtain ⟨k1, k2⟩ := C27_index_overflow_exact bits width keepIdx ops v n hn e
      (s' := (s.step ⟨.bits bits, width, keepIdx⟩ (.token v n)).1)
      (o := (s.step ⟨.bits bits, width, keepIdx⟩ (.token v n)).2) rfl
    rcases Nat.lt_or_ge (s.b.cursor + n) (2 ^ bits) with hlt | hge
    · rw [(k2 hlt).2]
      constructor
      · exact .inr
      · rintro (h | h)
        · omega
        · exact h
    · exact ⟨fun _ => .inl hge, fun _ => (k1 hge).2⟩

/-- `type Index = u32; type Width = u8;`: after two nodes the next one is number 2, and a token that
ends at `2 ^ 32` is refused. -/
example : ((Sys.init.runK true ⟨.bits 32, 8, true⟩ [.open 1, .token 2 3]).1.stepK true
      ⟨.bits 32, 8, true⟩ (.open 1)).2 = .ok (.id 2) ∧
    ((Sys.init.runK true ⟨.bits 32, 8, true⟩ [.open 1, .token 2 3]).1.stepK true
      ⟨.bits 32, 8, true⟩ (.token 1 (2 ^ 32 - 3))).2 = .error .overflow := by
  obtain ⟨_, h2, h3⟩ := C91_limits 64 [(.index, .u32), (.width, .u8)] (r := ⟨⟨.bits 32, 8, true⟩, true⟩)
    rfl [Op.open 1, .token 2 3] rfl
  exact ⟨h2 1, (h3 32 rfl 1 (2 ^ 32 - 3) (by decide)).2 (.inl (by decide +kernel))⟩

/-- C91: without the feature `alloc`, no flavor that can be declared keeps any node (C90). -/
theorem C91_no_alloc (word : Nat) (hword : 0 < word) (d : Decl) {r : Declared}
    (h : d.expand word false = some r) (ops : List (Op α)) {t : Tree α}
    (hb : (Sys.init.runK r.keep r.fl ops).1.b.build = .ok t) :
    t.len = 0 ∧ Yields (Walk.next t.nodes) t.walk [] := by
  obtain ⟨_, _, _, _, _, _, hw, _, hk⟩ := (C91_declarations word false d r).1 h
  rw [hk] at hb
  have hpos : 0 < r.fl.width := by omega
  obtain ⟨h1, _, _, _, _, _, h2, _⟩ := C90_nothing_kept hpos ops hb
  exact ⟨h1, h2⟩

/-- `Builder::new()`, without `alloc`. -/
example : ∃ r t, Decl.default.expand 64 false = some r ∧
    (Sys.init.runK r.keep r.fl threeTokens).1.b.build = .ok t ∧ t.len = 0 := by
  have hp : (Sys.init.runK false ⟨.bits 32, 64, false⟩ threeTokens).1.b.parent.isSome = false := by
    decide +kernel
  have ht : (Sys.init.runK false ⟨.bits 32, 64, false⟩ threeTokens).1.b.build =
      .ok (Sys.init.runK false ⟨.bits 32, 64, false⟩ threeTokens).1.b.tree := by
    rw [Builder.build, hp]; rfl
  exact ⟨⟨⟨.bits 32, 64, false⟩, false⟩, _, rfl, ht,
    (C91_no_alloc 64 (by decide) Decl.default (r := ⟨⟨.bits 32, 64, false⟩, false⟩) rfl threeTokens ht).1⟩

end Syntree
