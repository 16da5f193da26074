import Verif.Proof.More

/-! Listing a tree. -/

namespace Syntree

variable {α : Type}

open Forest

theorem forLoop_of_yields {σ β γ : Type} {next : NextFn σ β} {body : β → γ} {s : σ} {l : List β}
    (h : Yields next s l) : ∀ fuel, l.length < fuel → forLoop next body fuel s = some (l.map body) := by
  induction h with
  | done e =>
    intro fuel hf
    cases fuel with
    | zero => omega
    | succ fuel => simp [forLoop, e]
  | item e _ ih =>
    intro fuel hf
    cases fuel with
    | zero => omega
    | succ fuel =>
      simp only [List.length_cons] at hf
      simp [forLoop, e, ih fuel (by omega)]

theorem Represents.listing {g : Bool} {t : Tree α} {F : Forest (Lab α)} (h : Represents g t F) :
    t.listing = some F.listing := by
  unfold Tree.listing
  rw [forLoop_of_yields h.with_depths]
  · rw [Forest.listing, List.map_map]
    congr 1
    apply List.map_congr_left
    rintro ⟨d, x⟩ hx
    obtain ⟨anc, left, kids, right, _, hl⟩ := Loc.of_depths hx
    obtain ⟨_, h2, h3, _⟩ := h.node_get hl
    simp only [Function.comp, h2, h3]
  · rw [List.length_map]
    have : (F.depths 0).length = F.preorder.length := by
      rw [← depths_snd 0 F, List.length_map]
    rw [this, preorder_length]
    have := h.size
    simp only [Tree.len]; omega

end Syntree
