import Verif.Proof.SkipEnds
import Verif.Props.Traverse

/-!
# `skip_tokens()` from both ends: C18
-/

namespace Syntree

open Forest

variable {α : Type} {fl : Flavor} {t : Tree α} {F : Forest (Lab α)}

/-- C18, for any underlying iterator that hands out the elements of a list from the two ends, in any
interleaving: so does `skip_tokens()` for the elements that have children; and if `find` and `rfind`
are called on it with any predicates, in any order, each call searches what the calls before have left
of that sequence, from its end. -/
theorem C18_skip_tokens_both_ends {σ : Type} (nodes : Slice α) {next back : NextFn σ Nat} {s : σ}
    {l : List Nat} (h : ∀ bs, runEnds next back bs s = (takeEnds bs l).map Got.ofOption)
    (hb : l.length ≤ nodes.length) :
    (∀ bs, runEnds (SkipTokens.next nodes next) (SkipTokens.nextBack nodes back) bs s =
      (takeEnds bs (l.filter (hasChildren nodes))).map Got.ofOption) ∧
    ∀ cs, runFinds (SkipTokens.find nodes next) (SkipTokens.rfind nodes back) cs s =
      (takeFinds cs (l.filter (hasChildren nodes))).map Got.ofOption := by
  refine ⟨fun bs => ?_, fun cs => GivesEnds.finds cs h hb⟩
  have h1 := GivesEnds.finds (nodes := nodes) (bs.map fun b => (b, fun _ => true)) h hb
  have e1 : ∀ (bs : List Bool) (s : σ),
      runFinds (SkipTokens.find nodes next) (SkipTokens.rfind nodes back)
        (bs.map fun b => (b, fun _ => true)) s =
      runEnds (SkipTokens.next nodes next) (SkipTokens.nextBack nodes back) bs s := by
    intro bs
    induction bs with
    | nil => intro s; rfl
    | cons b bs ih =>
      intro s
      simp only [List.map_cons, runFinds, runEnds, ih, SkipTokens.find, SkipTokens.rfind,
        Bool.and_true]
      rfl
  have e2 : ∀ (bs : List Bool) (l : List Nat),
      takeFinds (bs.map fun b => (b, fun _ => true)) l = takeEnds bs l := by
    intro bs
    induction bs with
    | nil => intro l; rfl
    | cons b bs ih =>
      intro l
      have hd : ∀ l : List Nat, l.dropWhile (fun _ => !true) = l := fun l => by cases l <;> rfl
      have hf : ∀ l : List Nat, l.find? (fun _ => true) = l.head? := fun l => by cases l <;> rfl
      cases b
      · simp only [List.map_cons, takeFinds, takeEnds, hd, hf, ih, List.head?_reverse,
          List.tail_reverse, List.reverse_reverse]
      · simp only [List.map_cons, takeFinds, takeEnds, hd, hf, ih]
  rw [← e1, h1, e2]

/-- C18 from both ends on trees: wherever `last()` is right (`C14_last_iff` says where),
`children().skip_tokens()` hands out the children that have children themselves from the two ends, in
any interleaving, and `find` and `rfind` search what is left of them. -/
theorem C18_children_both_ends (h : Made fl t F) :
    (t.lastNode = (F.tops.map (·.id)).getLast? →
      (∀ bs, runEnds (SkipTokens.next t.nodes (Children.next t.nodes))
          (SkipTokens.nextBack t.nodes (Children.nextBack t.nodes)) bs t.children =
        (takeEnds bs ((F.tops.map (·.id)).filter (hasChildren t.nodes))).map Got.ofOption) ∧
      ∀ cs, runFinds (SkipTokens.find t.nodes (Children.next t.nodes))
          (SkipTokens.rfind t.nodes (Children.nextBack t.nodes)) cs t.children =
        (takeFinds cs ((F.tops.map (·.id)).filter (hasChildren t.nodes))).map Got.ofOption) ∧
    ∀ {anc : List (Lab α)} {left kids right : Forest (Lab α)} {x : Lab α},
      Loc F anc left x kids right →
      nodeLast t.nodes x.id = (kids.tops.map (·.id)).getLast? →
      (∀ bs, runEnds (SkipTokens.next t.nodes (Children.next t.nodes))
          (SkipTokens.nextBack t.nodes (Children.nextBack t.nodes)) bs (nodeChildren t.nodes x.id) =
        (takeEnds bs ((kids.tops.map (·.id)).filter (hasChildren t.nodes))).map Got.ofOption) ∧
      ∀ cs, runFinds (SkipTokens.find t.nodes (Children.next t.nodes))
          (SkipTokens.rfind t.nodes (Children.nextBack t.nodes)) cs (nodeChildren t.nodes x.id) =
        (takeFinds cs ((kids.tops.map (·.id)).filter (hasChildren t.nodes))).map Got.ofOption := by
  have hr := h.represents
  obtain ⟨h1, h2⟩ := C13_double_ended_iff h
  refine ⟨fun hlast => C18_skip_tokens_both_ends t.nodes (h1.2 hlast) ?_,
    fun hl hlast => C18_skip_tokens_both_ends t.nodes ((h2 hl).2 hlast) ?_⟩
  · exact length_le_of_nodup hr (topIds_sublist F)
  · rename_i anc left kids right x
    have h1 := hl.depth_lt
    have h2 := (topIds_sublist kids).length_le
    have h3 := preorder_length kids
    have h4 := hr.size
    simp only [ids, topIds, List.length_map, Forest.size] at h1 h2 h4 ⊢
    omega

/-- The children of node `0` are `3` and `4`, of which only `3` has children; from the back and then
from the front it comes once. `rfind` for something else than `3` uses it up. -/
example : runEnds (SkipTokens.next demoTree.nodes (Children.next demoTree.nodes))
      (SkipTokens.nextBack demoTree.nodes (Children.nextBack demoTree.nodes)) [false, true]
      (nodeChildren demoTree.nodes 0) = [.some 3, .none] ∧
    runFinds (SkipTokens.find demoTree.nodes (Children.next demoTree.nodes))
      (SkipTokens.rfind demoTree.nodes (Children.nextBack demoTree.nodes))
      [(false, (· ≠ 3)), (true, fun _ => true)] (nodeChildren demoTree.nodes 0) = [.none, .none] := by
  obtain ⟨h1, h2⟩ := (C18_children_both_ends demo_made).2 (.root (left := .nil) rfl)
    (((C14_last_iff demo_made).2 (.root (left := .nil) rfl)).2 (.inr rfl))
  exact ⟨h1 [false, true], h2 [(false, (· ≠ 3)), (true, fun _ => true)]⟩

/-- Searching a fused iterator from the front leaves the rest. -/
theorem Yields.find_rest {σ β : Type} {next : NextFn σ β} (hf : Fused next) (q : β → Bool) :
    ∀ (fuel : Nat) {s : σ} {l : List β}, Yields next s l → l.length < fuel →
    (findLoop next q fuel s).2 = Got.ofOption (l.find? q) ∧
      Yields next (findLoop next q fuel s).1 (l.dropWhile (fun x => !q x)).tail
  | 0, _, _, _, h => absurd h (Nat.not_lt_zero _)
  | fuel + 1, s, l, h, hl => by
    rw [findLoop]
    cases h with
    | done h1 =>
      rw [h1]
      exact ⟨rfl, (hf _ _ h1).1⟩
    | item h1 h2 =>
      rename_i s' x l
      rw [h1]
      dsimp only
      by_cases hq : q x = true
      · simp only [hq, if_true, List.find?_cons, List.dropWhile_cons, Bool.not_true]
        exact ⟨rfl, h2⟩
      · have hq : q x = false := by simpa using hq
        simp only [hq, List.find?_cons, List.dropWhile_cons, Bool.not_false, if_true]
        exact Yields.find_rest hf q fuel h2 (Nat.lt_of_succ_lt_succ hl)

/-- C18, for any underlying iterator that is fused (`C19_fused`: all of the crate are) and hands out
the elements of a list: if `find` is called on `skip_tokens()` of it again and again, with any
predicates, each call searches what the calls before have left of the elements with children. (`next`
is the `find` of everything.) -/
theorem C18_finds_in_a_row {σ : Type} (nodes : Slice α) {next : NextFn σ Nat} (hf : Fused next)
    {s : σ} {l : List Nat} (h : Yields next s l) (hb : l.length ≤ nodes.length)
    (ps : List (Nat → Bool)) :
    runFinds (SkipTokens.find nodes next) (SkipTokens.find nodes next) (ps.map (true, ·)) s =
      (takeFinds (ps.map (true, ·)) (l.filter (hasChildren nodes))).map Got.ofOption ∧
    SkipTokens.next nodes next = SkipTokens.find nodes next (fun _ => true) := by
  refine ⟨?_, ?_⟩
  · induction ps generalizing s l with
    | nil => rfl
    | cons p ps ih =>
      obtain ⟨h1, h2⟩ := h.find_rest hf (fun n => hasChildren nodes n && p n) (nodes.length + 1)
        (by omega)
      obtain ⟨f1, f2⟩ := skip_find_filter (hasChildren nodes) p l
      have h4 := ih h2 (Nat.le_trans (skip_remains _ _) hb)
      simp only [runFinds, takeFinds, List.map_cons, if_true]
      rw [← f1, ← h1, ← f2, ← h4]
      rfl
  · funext s
    simp only [SkipTokens.next, SkipTokens.find, Bool.and_true]

/-- C18 on trees: calling `find` on `skip_tokens()` of a walk, of the siblings or of the ancestors
again and again. -/
theorem C18_finds_on_trees (h : Made fl t F) (ps : List (Nat → Bool)) :
    (∀ l, Yields (Walk.next t.nodes) t.walk l →
      runFinds (SkipTokens.find t.nodes (Walk.next t.nodes)) (SkipTokens.find t.nodes (Walk.next t.nodes))
        (ps.map (true, ·)) t.walk =
      (takeFinds (ps.map (true, ·)) (l.filter (hasChildren t.nodes))).map Got.ofOption) ∧
    (∀ i l, i < t.len → Yields (Siblings.next t.nodes) (nodeSiblings i) l →
      runFinds (SkipTokens.find t.nodes (Siblings.next t.nodes))
        (SkipTokens.find t.nodes (Siblings.next t.nodes)) (ps.map (true, ·)) (nodeSiblings i) =
      (takeFinds (ps.map (true, ·)) (l.filter (hasChildren t.nodes))).map Got.ofOption) ∧
    (∀ i l, i < t.len → Yields (Ancestors.next t.nodes) (nodeAncestors i) l →
      runFinds (SkipTokens.find t.nodes (Ancestors.next t.nodes))
        (SkipTokens.find t.nodes (Ancestors.next t.nodes)) (ps.map (true, ·)) (nodeAncestors i) =
      (takeFinds (ps.map (true, ·)) (l.filter (hasChildren t.nodes))).map Got.ofOption) := by
  have hr := h.represents
  obtain ⟨-, fw, -, -, fs, fa, -, -⟩ := C19_fused t.nodes
  refine ⟨fun l hl => ?_, fun i l hi hl => ?_, fun i l hi hl => ?_⟩
  · have := hr.walk.det hl
    subst this
    exact (C18_finds_in_a_row t.nodes fw hl (length_le_of_nodup hr (List.Sublist.refl _)) ps).1
  · refine (C18_finds_in_a_row t.nodes fs hl ?_ ps).1
    obtain ⟨anc, left, x, kids, right, rfl, hloc⟩ := (C17_links_match_place h).1 i hi
    have := (hr.siblings hloc).det hl
    subst this
    have h0 := hr.size
    have h1 := hloc.depth_lt
    have h2 := (topIds_sublist right).length_le
    have h3 := preorder_length right
    simp only [ids, List.length_map, Forest.size, List.length_cons] at h0 h1 h2 ⊢
    omega
  · refine (C18_finds_in_a_row t.nodes fa hl ?_ ps).1
    obtain ⟨anc, left, x, kids, right, rfl, hloc⟩ := (C17_links_match_place h).1 i hi
    have := (hr.ancestors hloc).det hl
    subst this
    have h0 := hr.size
    have h1 := hloc.depth_lt
    simp only [Forest.size, List.length_cons, List.length_map] at h0 h1 ⊢
    omega

/-- The walk is `0, 3, 1, 2, 4, 5`, of which `0` and `3` have children. Looking for anything but `0`
uses both up. -/
example : runFinds (SkipTokens.find demoTree.nodes (Walk.next demoTree.nodes))
      (SkipTokens.find demoTree.nodes (Walk.next demoTree.nodes))
      ([(· != 0), fun _ => true].map (true, ·)) demoTree.walk = [.some 3, .none] :=
  (C18_finds_on_trees demo_made [(· != 0), fun _ => true]).1 _ demo_made.represents.walk

end Syntree
