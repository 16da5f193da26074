import Verif.Proof.EditTree
import Verif.Proof.Hist
import Verif.Spec.Made
import Verif.Proof.Obtained

/-! Made trees are represented. -/

namespace Syntree

variable {α : Type} {fl : Flavor}

open Forest

theorem listing_inj {F G : Forest (Lab α)} (h : F.listing = G.listing) : F = G := by
  unfold Forest.listing at h
  have inj : ∀ {l l' : List (Nat × Lab α)},
      l.map (fun p => ((p.1 : Int), p.2.id, some p.2.data, some p.2.span)) =
        l'.map (fun p => ((p.1 : Int), p.2.id, some p.2.data, some p.2.span)) → l = l' := by
    intro l
    induction l with
    | nil => intro l' h; cases l' with
      | nil => rfl
      | cons => simp at h
    | cons p l ih =>
      intro l' h
      cases l' with
      | nil => simp at h
      | cons q l' =>
        obtain ⟨p1, p2, p3, p4⟩ := p
        obtain ⟨q1, q2, q3, q4⟩ := q
        simp only [List.map_cons, List.cons.injEq, Prod.mk.injEq, Option.some.injEq] at h
        obtain ⟨⟨h1, h2, h3, h5⟩, h4⟩ := h
        rw [ih h4, h2, h3, h5]
        have : p1 = q1 := by omega
        rw [this]
  exact depths_inj (inj h)

theorem Represents.listing_unique {g : Bool} {t : Tree α} {F G : Forest (Lab α)}
    (h : Represents g t F) (hl : t.listing = some G.listing) : F = G := by
  rw [h.listing] at hl
  simp only [Option.some.injEq] at hl
  exact listing_inj hl

/-! ### `replace` -/

/-- Change the value of node `i`. -/
def relabel (i : Nat) (v : α) (x : Lab α) : Lab α := if x.id = i then ⟨x.id, v, x.span⟩ else x

@[simp] theorem relabel_id (i : Nat) (v : α) (x : Lab α) : (relabel i v x).id = x.id := by
  unfold relabel; split <;> rfl

theorem map_preorder {β γ : Type} (f : β → γ) (F : Forest β) : (F.map f).preorder = F.preorder.map f := by
  induction F with
  | nil => rfl
  | cons x k r ihk ihr => simp [Forest.map, ihk, ihr]

theorem map_tops {β γ : Type} (f : β → γ) (F : Forest β) : (F.map f).tops = F.tops.map f := by
  induction F with
  | nil => rfl
  | cons x k r _ ihr => simp [Forest.map, ihr]

theorem map_spine {β γ : Type} (f : β → γ) : ∀ F : Forest β, (F.map f).spine = F.spine.map f
  | .nil => rfl
  | .cons x k .nil => by
    have := map_spine f k
    simp only [Forest.map, Forest.spine, List.map_cons, this]
  | .cons x k (.cons y k' r') => by
    have := map_spine f (.cons y k' r')
    have e1 : (Forest.cons x k (.cons y k' r')).spine = (Forest.cons y k' r').spine := by
      rw [Forest.spine]; simp
    have e2 : (Forest.map f (.cons x k (.cons y k' r'))).spine =
        (Forest.map f (.cons y k' r')).spine := by
      simp only [Forest.map]
      rw [Forest.spine]; simp
    rw [e1, e2, this]

theorem relabel_ids (i : Nat) (v : α) (F : Forest (Lab α)) : (F.map (relabel i v)).ids = F.ids := by
  rw [Forest.ids, map_preorder, List.map_map, Forest.ids]
  apply List.map_congr_left; intro x _; simp

theorem relabel_headId (i : Nat) (v : α) (F : Forest (Lab α)) :
    (F.map (relabel i v)).headId = F.headId := by
  cases F <;> simp [Forest.map]

theorem relabel_lastId (i : Nat) (v : α) (F : Forest (Lab α)) :
    (F.map (relabel i v)).lastId = F.lastId := by
  induction F with
  | nil => rfl
  | cons x k r _ ihr => rw [Forest.map, lastId_cons, lastId_cons, ihr, relabel_id]

theorem map_nil_iff {β γ : Type} (f : β → γ) (F : Forest β) : F.map f = .nil ↔ F = .nil := by
  cases F <;> simp [Forest.map]

theorem relabel_wrappedBy (i j : Nat) (v : α) (F : Forest (Lab α)) :
    (F.map (relabel i v)).wrappedBy j = F.wrappedBy j := by
  cases F <;> simp [Forest.map, wrappedBy]

theorem relabel_heldLast (i : Nat) (v : α) (root : Bool) : ∀ F : Forest (Lab α),
    (F.map (relabel i v)).heldLast root = F.heldLast root
  | .nil => rfl
  | .cons x k .nil => by
    have h1 := relabel_heldLast i v root k
    have h2 : (k.map (relabel i v)).topIds.head? = k.topIds.head? := relabel_headId i v k
    simp only [Forest.map, heldLast, relabel_wrappedBy, relabel_id, h1, h2]
  | .cons _ _ (.cons y k r) => by
    have := relabel_heldLast i v root (.cons y k r)
    simp only [Forest.map] at this ⊢
    rw [heldLast, heldLast]; exact this

theorem LastRel.relabel {g : Bool} {o l : Option Nat} {k : Forest (Lab α)} (h : LastRel g o l k)
    (i : Nat) (v : α) : LastRel g o l (k.map (relabel i v)) := by
  refine ⟨fun hk => h.1 ((map_nil_iff _ _).1 hk), fun hk => ?_, fun hg => ?_, ?_⟩
  case refine_3 =>
    rw [h.2.2.2]
    have h2 : (k.map (Syntree.relabel i v)).topIds.getLast? = k.topIds.getLast? := relabel_lastId i v k
    cases o with
    | none => exact (relabel_heldLast i v true k).symm
    | some j => simp only [lastLink, relabel_wrappedBy, relabel_heldLast, h2]
  · obtain ⟨j, h1, h2⟩ := h.2.1 (fun h => hk ((map_nil_iff _ _).2 h))
    refine ⟨j, h1, ?_⟩
    rw [map_spine, List.map_map]
    obtain ⟨x, hx, rfl⟩ := List.mem_map.1 h2
    exact List.mem_map.2 ⟨x, hx, by simp⟩
  · rw [relabel_lastId]; exact h.2.2.1 hg

theorem nodeReplace_at {nodes : Slice α} {n : Nat} (v : α) (m : Nat) :
    (nodeReplace nodes n v).1[m]? =
      nodes[m]?.map (fun l => if m = n then { l with data := v } else l) := by
  unfold nodeReplace
  cases h : nodes[n]? with
  | none =>
    simp only
    cases h' : nodes[m]? with
    | none => rfl
    | some l =>
      have : m ≠ n := by rintro rfl; rw [h] at h'; cases h'
      simp [this]
  | some l =>
    simp only [List.getElem?_set]
    have hlt := (List.getElem?_eq_some_iff.1 h).1
    by_cases e : n = m
    · subst e; rw [if_pos rfl, if_pos hlt, h]; simp
    · rw [if_neg e]
      have e' : ¬ m = n := fun q => e q.symm
      cases h' : nodes[m]? with
      | none => rfl
      | some l' => simp [e']

theorem Seg.replace {g : Bool} {nodes : Slice α} {F : Forest (Lab α)} {par prev nxt : Option Nat}
    (h : Seg g nodes F par prev nxt) (i : Nat) (v : α) :
    Seg g (nodeReplace nodes i v).1 (F.map (relabel i v)) par prev nxt := by
  induction F generalizing par prev nxt with
  | nil => trivial
  | cons x k r ihk ihr =>
    obtain ⟨⟨l, hl, hx⟩, hk, hr⟩ := h
    refine ⟨⟨l, by rw [relabel_id]; exact hl.relabel i v, ?_⟩, ?_, ?_⟩
    · rw [relabel_id, nodeReplace_at, hx, relabel_headId, relabel_headId]
      unfold Syntree.relabel
      by_cases he : x.id = i
      · simp [he, mkLinks]
      · simp [he]
    · rw [relabel_id]; exact ihk hk
    · rw [relabel_id]; exact ihr hr

theorem Represents.replace {g : Bool} {t : Tree α} {F : Forest (Lab α)} (h : Represents g t F)
    (i : Nat) (v : α) : Represents g (t.replace i v).1 (F.map (relabel i v)) := by
  have hlen : (nodeReplace t.nodes i v).1.length = t.nodes.length := by
    unfold nodeReplace
    cases t.nodes[i]? <;> simp
  refine ⟨Seg.replace h.seg i v, ⟨?_, ?_⟩, ?_, rfl⟩
  · rw [relabel_headId]; exact h.first
  · exact h.last.relabel i v
  · rw [relabel_ids]
    show (F.ids ++ []).Perm (List.range (nodeReplace t.nodes i v).1.length)
    rw [hlen, List.append_nil]; exact h.perm

/-! ### Made trees -/

theorem Nest.init_count_le {ops : List (Op α)} {n : Nest α} {os : List (Except Err Out)}
    (h : Nest.init.run fl ops = some (n, os)) : n.count ≤ 2 ^ fl.width - 1 := by
  refine Nest.run_induct (P := fun _ n _ => n.count ≤ 2 ^ fl.width - 1) (Nat.zero_le _) ?_ ops n os h
  intro ops n os op n' o _ hi hst
  have full : n.full fl = false → n.count + 1 ≤ 2 ^ fl.width - 1 := by
    intro hf
    have : n.count < 2 ^ fl.width - 1 := not_full_iff.1 (by rw [hf]; simp)
    omega
  cases Nest.step_did hst with
  | fail _ _ => exact hi
  | lost d len c he ha' hf => exact hi
  | noHandle _ => exact hi
  | setCursor _ => exact hi
  | mark _ => exact hi
  | opened _ d sp hop' hf => exact full hf
  | emptyTok _ d _ hf => exact full hf
  | tok d len c he ha' hf => exact full hf
  | tokWith d sp hf => exact full hf
  | closed x left st hs' => exact hi
  | wrapped _ k d explicit m hop' _ _ _ hf => rw [wrap_count]; exact full hf

theorem pathIds_growParent (sp : Span) (st : Stack α) : pathIds (Nest.growParent sp st) = pathIds st := by
  cases st <;> rfl

/-- Without `close_at` the ids are in document order. -/
theorem Nest.numbered {ops : List (Op α)} {n : Nest α} {os : List (Except Err Out)}
    (h : Nest.init.run fl ops = some (n, os)) (hc : ∀ op ∈ ops, op.isCloseAt = false) :
    pathIds n.stack ++ n.cur.ids = List.range n.count := by
  refine Nest.run_induct (P := fun ops n _ => (∀ op ∈ ops, op.isCloseAt = false) →
    pathIds n.stack ++ n.cur.ids = List.range n.count) (fun _ => rfl) ?_ ops n os h hc
  intro ops n os op n' o _ hi hst hc
  have hi := hi (fun op h => hc op (by simp [h]))
  have leaf : ∀ (c : Nat) (d : α) (sp : Span),
      pathIds (Nest.endParent c n.stack) ++ (n.cur ++ Forest.leaf (⟨n.count, d, sp⟩ : Lab α)).ids =
        List.range (n.count + 1) := by
    intro c d sp
    rw [pathIds_endParent, ids_append, ← List.append_assoc, hi, List.range_succ]; rfl
  cases Nest.step_did hst with
  | fail _ _ => exact hi
  | lost d len c he ha' hf => exact hi
  | noHandle _ => exact hi
  | setCursor _ => exact hi
  | mark _ => exact hi
  | opened _ d sp hop' hf =>
    show (pathIds (Nest.endParent sp.stop n.stack) ++ (n.cur.ids ++ [n.count])) ++ [] =
      List.range (n.count + 1)
    rw [pathIds_endParent, List.append_nil, ← List.append_assoc, hi, List.range_succ]
  | emptyTok _ d _ hf => exact leaf _ _ _
  | tok d len c he ha' hf => exact leaf _ _ _
  | tokWith d sp hf =>
    show pathIds (Nest.growParent _ (Nest.endParent _ n.stack)) ++ _ = _
    rw [pathIds_growParent]
    exact leaf _ _ _
  | closed x left st hs' =>
    rw [hs'] at hi
    show pathIds (Nest.growParent _ st) ++ (left ++ single x n.cur).ids = _
    rw [pathIds_growParent, ← hi]
    simp [pathIds]
  | wrapped op k d explicit m hop' _ _ _ hf =>
    have := hc op (by simp)
    rcases hop' with ⟨rfl, _⟩ | ⟨sp, rfl, _⟩ <;> simp [Op.isCloseAt] at this

theorem Built.numbered {ops : List (Op α)} {t : Tree α} {F : Forest (Lab α)} (h : Built fl ops t F)
    (hc : ∀ op ∈ ops, op.isCloseAt = false) : F.Numbered := by
  obtain ⟨n, os, h1, hs, hcur, _, _, hlen, _⟩ := h.parts
  have := Nest.numbered h1 hc
  rw [hs, hcur] at this
  have hsz := h.represents.size
  simp only [Tree.len] at hlen
  rw [Forest.Numbered, hsz, hlen]
  exact this

theorem Made.spec {t : Tree α} {F : Forest (Lab α)} (h : Made fl t F) :
    Represents false t F ∧ F.size ≤ 2 ^ fl.width - 1 := by
  induction h with
  | built h =>
    refine ⟨h.represents, ?_⟩
    obtain ⟨n, os, h1, _, _, _, _, hlen, _⟩ := h.parts
    rw [h.represents.size]
    have := Nest.init_count_le h1
    simp only [Tree.len] at hlen
    omega
  | @edited t F c t' G _ hm hl ih =>
    obtain ⟨s1, s2⟩ := modify_spec (fl := fl) ih.1 c
    cases hmach : c.machine fl F with
    | error e => rw [s1 e hmach] at hm; simp at hm
    | ok n =>
      obtain ⟨t'', h1, h2, _, h4⟩ := s2 n hmach
      rw [hm] at h1
      simp only [Except.ok.injEq] at h1
      subst h1
      have := h2.listing_unique hl
      subst this
      refine ⟨h2.weaken, ?_⟩
      have := h2.size
      have := (machine_inv hmach).cap
      simp only [Tree.len] at h4
      omega
  | @salvaged t c t' G ht hm hl =>
    obtain ⟨F, _, _, _, _, ⟨e, _, h2⟩ | ⟨n, t'', g0, g1, g2, g3, _, g4, _⟩⟩ := ht.sane.modify (fl := fl) c
    · rw [h2] at hm; simp at hm
    · rw [hm] at g1
      simp only [Except.ok.injEq] at g1
      subst g1
      have := g2.listing_unique hl
      subst this
      refine ⟨g2.weaken, ?_⟩
      have := g2.size
      have := (machine_inv g0).cap
      simp only [Tree.len] at g4
      omega
  | @replaced t F i v G _ hl ih =>
    have h2 := ih.1.replace i v
    have := h2.listing_unique hl
    subst this
    refine ⟨h2, ?_⟩
    have : (F.map (relabel i v)).size = F.size := by
      rw [← preorder_length, map_preorder, List.length_map, preorder_length]
    omega

theorem Made.represents {t : Tree α} {F : Forest (Lab α)} (h : Made fl t F) : Represents false t F :=
  h.spec.1

end Syntree
