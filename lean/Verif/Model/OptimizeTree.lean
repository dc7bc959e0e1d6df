import Verif.Model.TreeRanks
import Verif.Model.TreeSurgery
import Mathlib.Data.Real.Basic

/-!
# Model of the optimization of the dimension tree of a tree-based tensor

`TreeBasedTensor.nodes_permutation_cost`, `optimize_dimension_tree`, `optimize_leaves_permutations` (tree_based_tensor.py l.692-812,
l.961-1033). The random choices are parameters, as is the permutation of two nodes with its tensors (`permute_nodes`, of which the tree is
modelled in `Verif.Model.TreeSurgery`).
-/

namespace Verif.TreeBased

open Verif.Arr Verif.DimTree

variable {R : Type}

/-- `ranks` (l.709-712): the ranks, and for the nodes that are not active (in their order) the sizes of the dimensions that are not active,
in the order of the dimensions. The array is `self.ranks` itself: this is also what `self.ranks` contains after the call. -/
def costRanks (x : TBT R) : Nat → Nat :=
  ((x.tree.nodes.filter (fun i => !x.active i)).zip ((x.tree.dim2ind.filter (fun i => !x.active i)).map x.leafSize)).foldl
    (fun f p => upd f p.1 p.2) x.rank

/-- The cost of the pair `alpha`, `beta` (l.716-734): 0 if they are not exchanged. -/
def pairCost (T : DTree) (lev : Nat → Nat) (ranks : Nat → Nat) (alpha beta : Nat) : Py Nat := do
  let ascA ← T.ascendants alpha
  let ascB ← T.ascendants beta
  let desc ← T.descendants alpha
  if beta ∈ ascA ∨ beta ∈ desc ∨ T.parent beta = T.parent alpha then .ok 0
  else do
    let common := ascA.filter (fun i => ascB.contains i)
    let top := (common.map lev).foldl max 0
    match common.filter (fun i => lev i == top) with
    | [gamma] => do
      let ascG ← T.ascendants gamma
      let uniq := (ascA ++ ascB).dedup
      let children := ((uniq.filter (fun i => !ascG.contains i)).flatMap T.children).filter (fun i => !uniq.contains i)
      .ok (ranks gamma * (children.map ranks).prod)
    | _ => .error .valueError

/-- `nodes_permutation_cost(alpha)` (l.692-735): the costs of the nodes from 1 to `nb_nodes`. -/
def permutationCost (T : DTree) (ranks : Nat → Nat) (alpha : Nat) : Py (List Nat) := do
  let lev ← T.level
  T.nodes.mapM (pairCost T lev ranks alpha)

/-- `x.nodes_permutation_cost(alpha)`: the costs, and the content of `x.ranks` after the call. -/
def nodesPermutationCost (x : TBT R) (alpha : Nat) : Py (List Nat × (Nat → Nat)) := do
  let cost ← permutationCost x.tree (costRanks x) alpha
  .ok (cost, costRanks x)

/-- `candidates + 1` (l.793, l.1016). -/
def candidates (cost : List Nat) : List Nat := ((List.range cost.length).filter (fun i => cost.getD i 0 != 0)).map (· + 1)

/-- `cost[np.logical_not(self.tree.is_leaf)] = 0` (l.1014). -/
def leafCost (T : DTree) (cost : List Nat) : List Nat :=
  (List.range cost.length).map (fun i => if T.isLeaf (i + 1) then cost.getD i 0 else 0)

/-- `tensor.permute_nodes([alpha, beta], tolerance)`. -/
abbrev Permute (R : Type) := TBT R → Nat × Nat → ℝ → Py (TBT R)

/-- The loop `while i < m_current` (l.785-802), with fuel. `draw k` is the pair of random choices of the turn `k`: the node `alpha`, and the
number of `beta` among the candidates (the turn is a turn without effect if there is none). `rk` is the content of `tensor_current.ranks`.
It returns the rows of `sigma`, the tensor and the content of its array `ranks`. -/
def whileLoop (P : Permute R) (eps : ℝ) (m : Nat) (draw : Nat → Nat × Nat) :
    Nat → Nat → List (Nat × Nat) → TBT R → (Nat → Nat) → Py (List (Nat × Nat) × TBT R × (Nat → Nat))
  | 0, _, _, _, _ => .error .nonTermination
  | fuel + 1, k, sigma, t, rk =>
    if sigma.length < m then do
      let (cost, rk') ← nodesPermutationCost t (draw k).1
      match (candidates cost)[(draw k).2]? with
      | none => whileLoop P eps m draw fuel (k + 1) sigma t rk'
      | some beta => do
        let t' ← P t ((draw k).1, beta) eps
        whileLoop P eps m draw fuel (k + 1) (sigma ++ [((draw k).1, beta)]) t' t'.rank
    else .ok (sigma, t, rk)

/-- The loop `for i in range(m_current)` (l.1007-1024): the row of `sigma` is `[0, 0]` if there is no candidate. `T0` is the tree of `self`. -/
def forLoop (P : Permute R) (T0 : DTree) (eps : ℝ) (draw : Nat → Nat × Nat) :
    Nat → Nat → List (Nat × Nat) → TBT R → (Nat → Nat) → Py (List (Nat × Nat) × TBT R × (Nat → Nat))
  | 0, _, sigma, t, rk => .ok (sigma, t, rk)
  | n + 1, k, sigma, t, _ => do
    let (cost, rk') ← nodesPermutationCost t (draw k).1
    match (candidates (leafCost T0 cost))[(draw k).2]? with
    | none => forLoop P T0 eps draw n (k + 1) (sigma ++ [(0, 0)]) t rk'
    | some beta => do
      let t' ← P t ((draw k).1, beta) eps
      forLoop P T0 eps draw n (k + 1) (sigma ++ [((draw k).1, beta)]) t' t'.rank

/-- The variables of the loop of l.769, l.992 (`m_star` is the number of rows of `sigma_star`). -/
structure OptState (R : Type) where
  star : TBT R
  cStar : Nat
  sigmaStar : List (Nat × Nat)
  mPerm : Nat
  ind : Bool
  tSigma : TBT R

/-- The lines 773-780, 996-1003. -/
def refresh (P : Permute R) (x : TBT R) (m : Nat) (eps : ℝ) (s : OptState R) : Py (OptState R) :=
  if s.mPerm < m ∨ s.ind = true then do
    let t ← s.sigmaStar.foldlM (fun t p => P t p eps) x
    .ok { s with mPerm := m, ind := false, tSigma := t }
  else .ok s

/-- The lines 804-810, 1026-1032. -/
def keep (s : OptState R) (sigma : List (Nat × Nat)) (cur : TBT R) (rk : Nat → Nat) : Py (OptState R) :=
  if storage cur < s.cStar then do
    let adm ← isAdmissible cur rk
    if adm = true then .ok { s with ind := true, cStar := storage cur, star := cur, sigmaStar := s.sigmaStar ++ sigma } else .ok s
  else .ok s

/-- An inner loop: tolerance, `m_current`, random choices, tensor. -/
abbrev Inner (R : Type) := ℝ → Nat → (Nat → Nat × Nat) → TBT R → Py (List (Nat × Nat) × TBT R × (Nat → Nat))

/-- One iteration (l.769-810, l.992-1032), of random choices `c`: `m_current` and the choices of the inner loop `inner`. -/
noncomputable def optStep (P : Permute R) (inner : Inner R) (x : TBT R) (tol : ℝ) (s : OptState R) (c : Nat × (Nat → Nat × Nat)) :
    Py (OptState R) := do
  let eps := tol / ((c.1 + s.sigmaStar.length : Nat) : ℝ)
  let s ← refresh P x c.1 eps s
  let (sigma, cur, rk) ← inner eps c.1 c.2 s.tSigma
  keep s sigma cur rk

/-- `optimize_dimension_tree(tolerance, max_iter)` (l.737-811): the random choices of the iterations are `choices`, of length `max_iter`. -/
noncomputable def optimizeTree (P : Permute R) (fuel : Nat) (x : TBT R) (tol : ℝ) (choices : List (Nat × (Nat → Nat × Nat))) : Py (TBT R) := do
  let s ← choices.foldlM (optStep P (fun eps m draw t => whileLoop P eps m draw fuel 0 [] t t.rank) x tol) ⟨x, storage x, [], 0, true, x⟩
  .ok s.star

/-- `optimize_leaves_permutations(tolerance, max_iter)` (l.961-1033). -/
noncomputable def optimizeLeaves (P : Permute R) (x : TBT R) (tol : ℝ) (choices : List (Nat × (Nat → Nat × Nat))) : Py (TBT R) := do
  let s ← choices.foldlM (optStep P (fun eps m draw t => forLoop P x.tree eps draw m 0 [] t t.rank) x tol) ⟨x, storage x, [], 0, true, x⟩
  .ok s.star

end Verif.TreeBased
