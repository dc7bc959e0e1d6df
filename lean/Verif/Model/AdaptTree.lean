import Verif.Model.OptimizeTree

/-!
# Model of `TreeBasedTensorLearning.adapt_tree` (tree_based_tensor_learning.py l.611-651)
-/

namespace Verif.TreeBased

open Verif.Arr Verif.DimTree

variable {R : Type}

/-- What `adapt_tree` reads of `self`: `tree_adaptation`, `tree_adaptation_options["tolerance"]`, whether the error type of the loss function is
`"relative"`, and writes: `tree`, `is_active_node`, `tree_adaptation`. -/
structure Adapter where
  on : Bool
  tolerance : Option ℝ
  relative : Bool
  tree : DTree
  active : Nat → Bool

/-- The results of `adapt_tree`: `self`, the tensor of `f`, and `output["adapted_tree"]` (none if it is not written). -/
structure Adapted (R : Type) where
  self : Adapter
  tensor : TBT R
  adapted : Option Bool

open Classical in
/-- `adapt_tree_error` (l.622-636): none if the adaptation is disabled; the inner option is the value, that may be `None`. -/
noncomputable def adaptError (s : Adapter) (cv te : Option ℝ) : Option (Option ℝ) :=
  match s.tolerance with
  | some t => some (some t)
  | none =>
    if s.relative then
      if te = none ∨ te = some 0 then some cv
      else some te
    else none

/-- `adapt_tree(f, cv_error, test_error, output)` (l.611-651). `opt` is `optimize_dimension_tree` with the maximal number of iterations of the
options: with `None` for the tolerance, the division of the tolerance raises an exception (for at least one iteration). -/
noncomputable def adaptTree (opt : TBT R → ℝ → Py (TBT R)) (s : Adapter) (f : TBT R) (cv te : Option ℝ) : Py (Adapted R) :=
  if s.on = false then .ok ⟨s, f, none⟩
  else if (f.tree.nodes.filter f.active).any (fun i => f.rank i == 0) then .ok ⟨s, f, some false⟩
  else
    match adaptError s cv te with
    | none => .ok ⟨{ s with on := false }, f, some false⟩
    | some none => .error .typeError
    | some (some tol) => do
      let g ← opt f tol
      if storage g < storage f then .ok ⟨{ s with tree := g.tree, active := g.active }, g, some true⟩
      else .ok ⟨s, f, some false⟩

end Verif.TreeBased
