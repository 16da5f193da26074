import Verif.Spec.Built
import Verif.Model.Edit
import Verif.Spec.Obtained

/-! # Trees from all sources -/

namespace Syntree

variable {α : Type}

/-- `Made fl t F`: the tree `t` was made by a builder, or from a made tree by `ChangeSet::modify`
with any change set, or by replacing a value with `Node::replace`, in any combination, or by
`ChangeSet::modify` from any tree a program can get hold of, checkpoints having been misused in any
way (`Spec/Obtained.lean`); and `F` is its nested list of nodes: for a builder the one the
specification says has been built, and after an edit the one that walking over the tree lists. -/
inductive Made (fl : Flavor) : Tree α → Forest (Lab α) → Prop
  | built {ops : List (Op α)} {t : Tree α} {F : Forest (Lab α)} : Built fl ops t F → Made fl t F
  | edited {t : Tree α} {F : Forest (Lab α)} {c : ChangeSet} {t' : Tree α} {G : Forest (Lab α)} :
      Made fl t F → c.modify fl t = .ok t' → t'.listing = some G.listing → Made fl t' G
  | salvaged {t : Tree α} {c : ChangeSet} {t' : Tree α} {G : Forest (Lab α)} :
      Obtained t → c.modify fl t = .ok t' → t'.listing = some G.listing → Made fl t' G
  | replaced {t : Tree α} {F : Forest (Lab α)} {i : Nat} {v : α} {G : Forest (Lab α)} :
      Made fl t F → (t.replace i v).1.listing = some G.listing → Made fl (t.replace i v).1 G

end Syntree
