import Verif.Model.Node

/-!
# Model of `slice::binary_search_by`

Not part of `/repo`: the function of the standard library that `src/tree.rs:517` calls (the
`Indexes` storage dereferences to a slice, `src/flavor.rs:21-60`). The theorems about range queries
hold for every function with the documented contract (`SearchSpec` in `Spec/Range.lean`); this is
the algorithm of the current `core::slice`, proved to have it.
-/

namespace Syntree

/-- The loop of `core::slice::binary_search_by`: `while size > 1 { .. }`. -/
def searchLoop (L : List TreeIndex) (k : Nat) : (fuel base size : Nat) → Nat
  | 0, base, _ => base
  | fuel + 1, base, size =>
    if size > 1 then
      let half := size / 2
      let mid := base + half
      let base := match L[mid]? with
        | some x => if x.index > k then base else mid
        | none => base
      searchLoop L k fuel base (size - half)
    else base

/-- `core::slice::binary_search_by(|f| f.index.cmp(&k))`. -/
def binarySearch (L : List TreeIndex) (k : Nat) : Search :=
  if L.length = 0 then .err 0
  else
    let base := searchLoop L k L.length 0 L.length
    match L[base]? with
    | none => .err base
    | some x =>
      if x.index = k then .ok base
      else .err (base + if x.index < k then 1 else 0)

end Syntree
