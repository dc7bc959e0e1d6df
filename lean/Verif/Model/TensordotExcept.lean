import Verif.Model.FullTensor

/-!
# Model of `FullTensor.tensordot_matrix_product_except_dim`
-/

namespace Verif.FullTensor

open Verif.Arr

variable {R : Type}

/-- `tensordot_matrix_product_except_dim(tensor2, matrices, dim)` (full_tensor.py l.754-785) for an integer `dim` and a list of matrices. -/
def tensordotExceptDim [CommSemiring R] (x y : Arr R) (matrices : List (Arr R)) (dim : Nat) : Py (Arr R) :=
  if matrices.length ≠ x.order then .error .assertionError
  else do
    let dims := setdiffRange x.order [dim]
    let tmp ← tensorMatrixProduct y (dims.map (fun i => matrices.getD i ⟨[], fun _ => 0⟩)) (some dims)
    tensordotT x tmp dims dims

end Verif.FullTensor
