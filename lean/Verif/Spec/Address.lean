import Verif.Model.Address

/-! # The nodes a program can get hold of, whatever the storage does -/

namespace Syntree

/-- A slice that lies in memory: it does not go beyond the last address. -/
def SliceAt.InMemory (usz size : Nat) (s : SliceAt) : Prop := s.base + s.len * size ≤ 2 ^ usz

/-- `Handed usz size ok n`: a program can get hold of the node `n`. `ok s s'` says which pairs of
slices the storage hands out when it is dereferenced twice in a row. Nothing is said about what is in
the slices: any valid pointer may be found in the links of any element. Iterators keep the slice they
were made with. -/
inductive Handed (w usz size : Nat) (ok : SliceAt → SliceAt → Prop) : NodeAt → Prop
  | get {s s' : SliceAt} {id : RawPtr w} {n : NodeAt} : ok s s' → id.Valid →
      treeGetAt usz size s s' id = some n → Handed w usz size ok n
  | iter {s s' : SliceAt} {id : RawPtr w} {cur : Nat} : ok s s' → id.Valid →
      s.get usz size id = some cur → Handed w usz size ok ⟨cur, s⟩
  | follow {n m : NodeAt} {id : RawPtr w} : Handed w usz size ok n → id.Valid →
      n.nodeAt usz size id = some m → Handed w usz size ok m

end Syntree
