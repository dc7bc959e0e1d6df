import Verif.Model.TreeRanks

/-!
# Model of `make_ranks_admissible` (tree_based_tensor_learning.py l.1286-1332)
-/

namespace Verif.TreeBased
open DimTree

variable {R : Type}

/-- The asked ranks after l.1310-1313: capped by the number of rows of the tensor for the active leaves, zero for the inactive
nodes. -/
def cappedRank (x : TBT R) (rk : Nat → Nat) (i : Nat) : Nat :=
  if x.active i then (if x.tree.isLeaf i && decide (rk i > (x.tensors i).shape.getD 0 0) then (x.tensors i).shape.getD 0 0 else rk i) else 0

/-- `np.nonzero(rank - f.ranks)[0] + 1` (l.1318, l.1321, l.1330): the nodes whose rank changes, in increasing order. -/
def changedNodes (x : TBT R) (rk : Nat → Nat) : List Nat := x.tree.nodes.filter (fun i => decide (rk i ≠ x.rank i))

/-- `f.ranks + delta_loc` (l.1326-1329): the nodes of `l` keep their rank. -/
def resetRanks (x : TBT R) (rk : Nat → Nat) (l : List Nat) : Nat → Nat := fun i => if i ∈ l then x.rank i else rk i

/-- The inner loops (l.1325-1331): the first combination that gives admissible ranks. -/
def firstAdmissible (x : TBT R) (rk : Nat → Nat) : List (List Nat) → Py (Option (List Nat))
  | [] => .ok none
  | l :: ls => do
    let b ← isAdmissible x (resetRanks x rk l)
    if b then .ok (some l) else firstAdmissible x rk ls

/-- `make_ranks_admissible(f, rank)` (l.1286-1332). `shuf i` is `shuffle(pos)` for the combinations of `i` nodes. Simplification: the
in-place modification of the argument `rank` is not modelled. -/
def makeRanksAdmissible (x : TBT R) (shuf : Nat → List (List Nat) → List (List Nat)) (rank : Nat → Nat) :
    Py ((Nat → Nat) × List Nat) := do
  let rk := cappedRank x rank
  let ind := changedNodes x rk
  let b ← isAdmissible x rk
  if b then .ok (rk, ind)
  else
    let o ← firstAdmissible x rk ((List.range' 1 ind.length).flatMap (fun i => shuf i (ind.sublistsLen i)))
    match o with
    | none => .ok (rk, [])
    | some l => .ok (resetRanks x rk l, changedNodes x (resetRanks x rk l))

end Verif.TreeBased
