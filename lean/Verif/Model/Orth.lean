import Verif.Model.TreeDot

/-!
# Model of the orthogonalisations (`full_tensor.py` l.680-731, `tree_based_tensor.py` l.1667-1681, l.1751-1790)

The QR factorisation is a parameter `qr` of the model: the theorems hold for every exact reduced QR factorisation.
-/

namespace Verif.FullTensor

open Verif.Arr

variable {R : Type}

/-- The permutation that puts the axis `dim` last (full_tensor.py l.708). -/
def lastPerm (order dim : Nat) : List Nat :=
  List.range dim ++ (List.range (order - (dim + 1))).map (· + (dim + 1)) ++ [dim]

/-- `orth(dim)` (full_tensor.py l.680-731) for a given `dim`. The branch of TensorFlow is not modelled. -/
def orthT (qr : Arr R → Arr R × Arr R) (x : Arr R) (dim : Nat) : Py (Arr R × Arr R) := do
  let dims := lastPerm x.order dim
  let t ← transposeT x dims
  let shape0 := t.shape
  let m ← reshape t [shape0.dropLast.prod, shape0.getLast?.getD 0]
  let q := (qr m).1
  let r := (qr m).2
  let t ← reshape q (shape0.dropLast ++ [r.shape.getD 0 0])
  let t ← itransposeT t dims
  .ok (t, r)

end Verif.FullTensor

namespace Verif.TreeBased

open Verif.Arr Verif.DimTree

variable {R : Type}

/-- The body of the loop of `orth` (tree_based_tensor.py l.1773-1785). The flag `is_orth` of a node tensor is not
modelled: the tensors are factorised unless `orth_dim` equals their order, which no method of the library sets. -/
def orthStep [CommSemiring R] (qr : Arr R → Arr R × Arr R) (T : DTree) (ts : Nat → Arr R) (nod : Nat) :
    Py (Nat → Arr R) := do
  let f ← FullTensor.orthT qr (ts nod) ((ts nod).order - 1)
  let p := T.parent nod
  let t ← FullTensor.tensorMatrixProduct (ts p) [f.2] (some [childAxis T nod])
  .ok (upd (upd ts nod f.1) p t)

/-- `fast_intersect(tree.nodes_with_level(level), self.active_nodes)` (tree_based_tensor.py l.1769-1771). -/
def activeAt (x : TBT R) (lev : Nat → Nat) (l : Nat) : List Nat := (x.tree.nodesWithLevel lev l).filter x.active

/-- `orth()` (tree_based_tensor.py l.1751-1790): the levels from the deepest one to the level 1. -/
def orth [CommSemiring R] (qr : Arr R → Arr R × Arr R) (x : TBT R) : Py (TBT R) := do
  let lev ← x.tree.level
  let ts ← ((List.range (x.tree.maxLevel lev)).map (· + 1)).reverse.foldlM
    (fun ts l => (activeAt x lev l).foldlM (orthStep qr x.tree) ts) x.tensors
  mk x.tree ts

/-- The square of `norm()` (tree_based_tensor.py l.1667-1681): the sum of the squares of the entries of the root tensor
of the orthogonalised tensor (the square root is not taken; `is_orth` is false). -/
def normSq [CommSemiring R] (qr : Arr R → Arr R × Arr R) (x : TBT R) : Py R := do
  let z ← orth qr x
  let r ← z.tree.root
  .ok (FullTensor.dot (z.tensors r) (z.tensors r))

end Verif.TreeBased
