import Verif.Model.Capacity

/-!
# Who can have which capacity
-/

namespace Syntree

variable {α : Type}

/-- `InUse v fl s cap`: a program has a builder in the state `s` whose storage has the capacity
`cap`. It was made empty and called in any way, and may have been cloned in between. What other
builders do to the checkpoints they share is not restricted. -/
inductive InUse (v : VecCaps) (fl : Flavor) : Sys α → Nat → Prop
  | new : InUse v fl Sys.init 0
  | call {s : Sys α} {cap : Nat} (op : Op α) : InUse v fl s cap →
      InUse v fl (s.step fl op).1 (s.capStep v fl cap op)
  | cloned {s : Sys α} {cap : Nat} : InUse v fl s cap → InUse v fl s (v.cloned s.b.tree.len)
  | others {s : Sys α} {cap : Nat} (cells : Cells) (handles : List Nat) : InUse v fl s cap →
      InUse v fl ⟨s.b, cells, handles⟩ cap

/-- `Roomy v t cap`: a program has the tree `t` and `t.capacity()` is `cap`. It was built, and may
have been edited, cloned and had values replaced. -/
inductive Roomy (v : VecCaps) : Tree α → Nat → Prop
  | built {fl : Flavor} {s : Sys α} {cap : Nat} {t : Tree α} : InUse v fl s cap →
      s.b.build = .ok t → Roomy v t cap
  | edited {fl : Flavor} {c : ChangeSet} {t t' : Tree α} {cap : Nat} : Roomy v t cap →
      c.modify fl t = .ok t' → Roomy v t' (c.capModify v fl t cap)
  | replaced {t : Tree α} {cap i : Nat} {x : α} : Roomy v t cap → Roomy v (t.replace i x).1 cap
  | cloned {t : Tree α} {cap : Nat} : Roomy v t cap → Roomy v t (v.cloned t.len)

end Syntree
