import Verif.Model.Truncator
import Verif.Model.TreeBasedTensor

/-!
# Model of `tensap/tensor_algebra/tools/truncator.py`: `svd`, `hosvd` and `truncate` of a dense tensor
-/

namespace Verif.Truncation

open Verif.Arr Verif.TreeBased Verif.DimTree

/-- `np.transpose(matrix)`. -/
def transp {R : Type} (M : Arr R) : Arr R := ⟨[M.shape.getD 1 0, M.shape.getD 0 0], fun i => M.get [i.getD 1 0, i.getD 0 0]⟩

/-- `max_rank = np.atleast_1d(self.max_rank)`, repeated if it has one element (truncator.py l.263-265). -/
def ranksFor (mr : List (Option Nat)) (n : Nat) : List (Option Nat) :=
  match mr with
  | [r] => List.replicate n r
  | l => l

/-- `max_rank[k]`. -/
def rankAt (mr : List (Option Nat)) (k : Nat) : Py (Option Nat) :=
  match mr[k]? with
  | none => .error .indexError
  | some r => .ok r

/-- The body of the loop on the dimensions in `hosvd` (truncator.py l.270-272). -/
noncomputable def hosvdLeft (svd : Svd) (t : Truncator) (mr : List (Option Nat)) (tol : ℝ) (x : Arr ℝ) (dim : Nat) :
    Py (Arr ℝ) := do
  let r ← rankAt mr dim
  let A ← FullTensor.matricize x [dim]
  let c ← truncSvd svd { t with maxRank := r } A (some tol)
  .ok (c.space.getD 0 ⟨[], fun _ => 0⟩)

/-- The products of `hosvd` (truncator.py l.273-275). -/
noncomputable def hosvdCore (x : Arr ℝ) (us : List (Arr ℝ)) : Py (Arr ℝ) :=
  ((us.map transp).zip (List.range x.order)).foldlM (fun y p => FullTensor.tensorMatrixProduct y [p.1] (some [p.2])) x

/-- `hosvd(tensor)` of a `FullTensor` of order other than two (truncator.py l.261-283), for a truncator with the
attribute `max_rank` equal to the list `mr` (the attribute of `t` is not read). The second component is the value of this
attribute after the call (l.271): a number, the last maximal rank. -/
noncomputable def hosvd (svd : Svd) (t : Truncator) (mr : List (Option Nat)) (x : Arr ℝ) : Py (TBT ℝ × List (Option Nat)) := do
  let ranks := ranksFor mr x.order
  let tol := t.tolerance / Real.sqrt x.order
  let us ← (List.range x.order).mapM (hosvdLeft svd t ranks tol x)
  let core ← hosvdCore x us
  let z ← mk (DTree.trivial x.order) (fun k => if k = 1 then core else us.getD (k - 2) ⟨[], fun _ => 0⟩)
  .ok (z, if x.order = 0 then mr else [(ranks.getD (x.order - 1) none)])

/-- A truncated tensor: `CanonicalTensor` or `TreeBasedTensor`. -/
inductive Truncated where
  | canonical (c : Canonical.Cn ℝ)
  | tree (x : TBT ℝ)

/-- `truncate(tensor)` of a `FullTensor` (truncator.py l.95-134, l.199-225), for a truncator with a number as maximal rank:
the truncated singular value decomposition of a matrix, `hosvd` of a tensor of order larger than two. -/
noncomputable def truncate (svd : Svd) (t : Truncator) (x : Arr ℝ) : Py Truncated :=
  if x.order = 2 then do .ok (.canonical (← truncSvd svd t x))
  else if 2 < x.order then do .ok (.tree (← hosvd svd t [t.maxRank] x).1)
  else .error .valueError

end Verif.Truncation
