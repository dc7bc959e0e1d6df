import Verif.Model.TreeRanks
import Verif.Model.CanonicalLearning
import Mathlib.Data.Real.Sqrt

/-!
# Model of the selection of the ranks in `TreeBasedTensorLearning`

`new_rank_selection`, `unique_tol`, `enriched_edges_to_ranks_random`, `randomize_exploration_strategy`
(tree_based_tensor_learning.py). The functions of the nodes are indexed by the node number. `none` is `nan`.
-/

namespace Verif.TreeBased
open DimTree

noncomputable section

/-- `np.finfo(float).eps`. -/
def floatEps : ℝ := 2⁻¹ ^ 52

/-- `len(set(x.size)) == 1` (tree_based_tensor_learning.py l.506): all the entries of the shape are equal. -/
def oneSize (s : List Nat) : Bool := s.dedup.length == 1

open Classical in
/-- `sin_val_min[i - 1]` after l.520 (tree_based_tensor_learning.py l.497-520) for the node `i`: the smallest singular value; `nan`
for the root, the inactive nodes, the active leaves with a square tensor, the nodes where the asked rank `sRank` was not reached by
`tensor_for_selection` (of ranks `tRank` and of norm `norm`), and the almost zero singular values. `sing i` are the singular values
of the node `i` of `tensor_for_selection`, `none` for an inactive node. -/
def svMin (x : TBT ℝ) (root : Nat) (sRank tRank : Nat → Nat) (sing : Nat → Option (List ℝ)) (norm : ℝ) (i : Nat) : Option ℝ :=
  if i = root then none
  else if x.tree.isLeaf i && x.active i && oneSize (x.tensors i).shape then none
  else if sRank i ≠ tRank i then none
  else match (sing i).bind List.min? with
    | none => none
    | some v => if v / norm < floatEps then none else some v

/-- One step of the loop l.533-540 (tree_based_tensor_learning.py), for the node `nod`. -/
def cannotStep (x : TBT ℝ) (c : Nat → Bool) (nod : Nat) : Nat → Bool :=
  if (x.tree.children nod).all c && decide (x.rank nod = ((x.tree.children nod).map x.rank).prod) then upd c nod true else c

/-- `cannot_be_increased` (tree_based_tensor_learning.py l.525-540). The second loop (l.541-553) only assigns `True` to entries that
are `True`. The levels are `lev`. Simplification: `tensor_for_selection` and `f` have the same tree. -/
def cannotBeIncreased (x : TBT ℝ) (root : Nat) (lev : Nat → Nat) (sv : Nat → Option ℝ) : Nat → Bool :=
  (((List.range' 1 (x.tree.maxLevel lev)).reverse).flatMap (fun l => (x.tree.nodesWithLevel lev l).filter (fun i => !x.tree.isLeaf i))).foldl
    (cannotStep x) (fun i => decide (i = root) || (x.tree.isLeaf i && (sv i).isNone))

/-- `sin_val_min[cannot_be_increased] = np.nan` (tree_based_tensor_learning.py l.554). -/
def mask (c : Nat → Bool) (sv : Nat → Option ℝ) (i : Nat) : Option ℝ := if c i then none else sv i

/-- The nodes with a value that is not `nan` and at least `t`. -/
def atLeast (nodes : List Nat) (sv : Nat → Option ℝ) (t : ℝ) : List Nat :=
  open Classical in nodes.filter (fun i =>
    match sv i with
    | none => false
    | some v => decide (v ≥ t))

/-- `enriched_nodes` of l.556-562 (tree_based_tensor_learning.py). -/
def thetaNodes (nodes : List Nat) (sv : Nat → Option ℝ) (theta : ℝ) : List Nat :=
  match (nodes.filterMap sv).max? with
  | none => []
  | some m => atLeast nodes sv (theta * m)

/-- `new_rank[l - 1] += 1` for distinct nodes `l` (tree_based_tensor_learning.py l.564-565, l.578-580). -/
def bump (rk : Nat → Nat) (l : List Nat) : Nat → Nat := fun i => if i ∈ l then rk i + 1 else rk i

open Classical in
/-- The loop of `unique_tol(inp, tol)` (tree_based_tensor_learning.py l.1354-1358) on a sorted list; `o` is `out[-1]`. A division by
zero gives `inf`, or `nan`. -/
def uniqueTolLoop (tol : ℝ) : ℝ → List ℝ → List ℝ
  | _, [] => []
  | o, v :: l =>
    if (if o = 0 then v ≠ 0 else |o - v| / o > tol) then v :: uniqueTolLoop tol v l else uniqueTolLoop tol o l

open Classical in
/-- `unique_tol(inp, tol)` (tree_based_tensor_learning.py l.1334-1359). `np.sort` puts the `nan` at the end, and they are not kept,
except when all the values are `nan`, a case that the caller removes (l.575). -/
def uniqueTol (inp : List (Option ℝ)) (tol : ℝ) : List ℝ :=
  match (inp.filterMap id).insertionSort (· ≤ ·) with
  | [] => []
  | v :: l => v :: uniqueTolLoop tol v l

/-- The loop l.577-585 (tree_based_tensor_learning.py): the first threshold that gives admissible ranks. -/
def tryThresholds (x : TBT ℝ) (rk : Nat → Nat) (sv : Nat → Option ℝ) : List ℝ → Py (Option (List Nat))
  | [] => .ok none
  | t :: ts => do
    let l := atLeast x.tree.nodes sv t
    let b ← isAdmissible x (bump rk l)
    if b then .ok (some l) else tryThresholds x rk sv ts

/-- l.556-590 (tree_based_tensor_learning.py): the new ranks and the enriched nodes, for the values `sv` of the nodes. -/
def selectNodes (x : TBT ℝ) (sv : Nat → Option ℝ) (theta : ℝ) : Py ((Nat → Nat) × List Nat) := do
  let e := thetaNodes x.tree.nodes sv theta
  let rk := bump x.rank e
  let b ← isAdmissible x rk
  if b then .ok (rk, e)
  else
    let sv' := fun i => if i ∈ e then none else sv i
    let o ← tryThresholds x rk sv' (uniqueTol (x.tree.nodes.map sv') 1e-2).reverse
    match o with
    | some l => .ok (bump rk l, e ++ l)
    | none => .ok (x.rank, [])

/-- `new_rank_selection(f)` (tree_based_tensor_learning.py l.476-590) when `tensor_for_selection` has the singular values `sing`, the ranks
`tRank` and the norm `norm`. Without the rank one correction, `s_local` is not assigned (l.508): `UnboundLocalError`, represented by
`attributeError`. -/
def newRankSelection (x : TBT ℝ) (rankOneCorrection : Bool) (sRank tRank : Nat → Nat) (sing : Nat → Option (List ℝ)) (norm theta : ℝ) :
    Py ((Nat → Nat) × List Nat) := do
  if !rankOneCorrection then .error .attributeError
  else
    let root ← x.tree.root
    let lev ← x.tree.level
    let sv := svMin x root sRank tRank sing norm
    selectNodes x (mask (cannotBeIncreased x root lev sv) sv) theta

/-! ### enrichment -/

/-- The entry `(i, j)` of `A` after `np.hstack` (tree_based_tensor_learning.py l.1254-1260, l.1270-1276); `i` is the number of the row, that of the other
subscripts `o`. -/
def enrichedEntry (T : Arr ℝ) (k : Nat) (Z : Nat → Nat → ℝ) (o : List Nat) (j : Nat) : ℝ :=
  let n := T.shape.getD k 0
  if j < n then T.get (o.insertIdx k j)
  else T.get (o.insertIdx k (n - 1)) * (1 + Z (ravelF (T.shape.eraseIdx k) o) (j - n))

/-- Addition of `rank` columns in direction `k` (tree_based_tensor_learning.py l.1251-1264 for the last direction of the node, l.1266-1281 for a
direction of its parent), with a normalisation of the new columns and of the last two old ones; `Z` is the random matrix.
Simplification: the reshapes are written with subscripts. -/
def enrichAxis (T : Arr ℝ) (k rank : Nat) (Z : Nat → Nat → ℝ) : Py (Arr ℝ) :=
  let n := T.shape.getD k 0
  let s := T.shape.eraseIdx k
  if n = 0 then .error .indexError
  else .ok ⟨T.shape.set k (n + rank), fun idx =>
    let j := idx.getD k 0
    let o := idx.eraseIdx k
    if n - 2 ≤ j then enrichedEntry T k Z o j /
      Real.sqrt (((List.range s.prod).map (fun i => enrichedEntry T k Z (unravelF s i) j ^ 2)).sum)
    else enrichedEntry T k Z o j⟩

/-- The body of the loop of `enriched_edges_to_ranks_random` (tree_based_tensor_learning.py l.1248-1283) for the node `alpha`. -/
def enrichNode (new : Nat → Nat) (Z : Nat → Nat → Nat → Nat → ℝ) (x : TBT ℝ) (alpha : Nat) : Py (TBT ℝ) := do
  let gamma := x.tree.parent alpha
  if new alpha < x.rank alpha ∨ x.rank alpha = 0 then .error .valueError
  else
    let rank := new alpha - x.rank alpha
    let A ← enrichAxis (x.tensors alpha) ((x.tensors alpha).order - 1) rank (Z alpha 0)
    let B ← enrichAxis (x.tensors gamma) (x.tree.childNumber alpha - 1) rank (Z alpha 1)
    .ok ⟨x.tree, upd (upd x.tensors alpha A) gamma B⟩

/-- `enriched_edges_to_ranks_random(f, new_rank)` (tree_based_tensor_learning.py l.1222-1284). `enriched_dims` (l.1243) are numbers from zero, and
are compared with the numbers of the nodes (l.1246), from one. `Z` are the random matrices. -/
def enrichedEdges (new : Nat → Nat) (Z : Nat → Nat → Nat → Nat → ℝ) (x : TBT ℝ) : Py (TBT ℝ) := do
  let lev ← x.tree.level
  let enriched := (x.tree.nodes.filter (fun i => decide (x.rank i < new i))).map (fun i => i - 1)
  ((List.range' 1 (x.tree.maxLevel lev)).flatMap (fun l => (x.tree.nodesWithLevel lev l).filter (fun i => enriched.contains i))).foldlM
    (enrichNode new Z) x

/-! ### random exploration -/

/-- `randomize_exploration_strategy()` (tree_based_tensor_learning.py l.188-198): `np.intersect1d(..., return_indices=True)` returns three
arrays, that are assigned to two names. -/
def randomizeTree (x : TBT ℝ) (count : Nat) : Py (List Nat) := do
  let lev ← x.tree.level
  (List.range (x.tree.maxLevel lev + 1)).reverse.foldlM (fun _ _ => .error .valueError) (List.replicate count 0)

/-- `randomize_exploration_strategy()` (canonical_tensor_learning.py l.171-181), without `one_by_one_factor`; `perm` is
`np.random.permutation(n - 1)`. -/
def randomizeCanonical (perm : List Nat) (n : Nat) : List Nat := perm.map (· + 1) ++ [n]

end

end Verif.TreeBased
