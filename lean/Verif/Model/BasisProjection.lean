import Verif.Model.Magic
import Verif.Model.LeastSquares

/-!
# Model of the projections of `tensap/approximation/bases/functional_basis.py`

A quadrature rule has points `x` and weights `w`; `y` are the values of the function at the points (one output).
-/

namespace Verif.Magic

open Verif.Arr Verif.Bases Matrix Verif.LeastSquares

variable {X : Type} {N c : Nat}

/-- `gram_matrix(G)` (functional_basis.py l.239-241). -/
noncomputable def gramMatrix (φ : X → Fin c → ℝ) (x : Fin N → X) (w : Fin N → ℝ) : Matrix (Fin c) (Fin c) ℝ :=
  (evalBasis φ x)ᵀ * (Matrix.diagonal w * evalBasis φ x)

/-- A vector as an array with one column: `np.reshape(u, [-1, 1])`. -/
noncomputable def colArr (u : Fin c → ℝ) : Arr ℝ := toArr (Matrix.of (fun a (_ : Fin 1) => u a))

/-- `quasi_projection(fun, G)` (functional_basis.py l.327-338). -/
noncomputable def quasiProjection (φ : X → Fin c → ℝ) (y : Fin N → ℝ) (x : Fin N → X) (w : Fin N → ℝ) : Py (FBA ℝ) :=
  FBA.mk' (colArr ((evalBasis φ x)ᵀ *ᵥ (Matrix.diagonal w *ᵥ y))) c [1]

/-- `least_squares_projection(fun, G)` (functional_basis.py l.291-305); `np.linalg.lstsq` is `la.lstsq`. -/
noncomputable def lsProjection (la : La) (φ : X → Fin c → ℝ) (y : Fin N → ℝ) (x : Fin N → X) (w : Fin N → ℝ) : Py (FBA ℝ) :=
  let W : Matrix (Fin N) (Fin N) ℝ := Matrix.diagonal (fun i => Real.sqrt (w i))
  FBA.mk' (colArr (la.lstsq (W * evalBasis φ x) (W *ᵥ y))) c [1]

/-- `projection(fun, G)` (functional_basis.py l.265-268). -/
noncomputable def projection (la : La) (isOrthonormal : Bool) (φ : X → Fin c → ℝ) (y : Fin N → ℝ) (x : Fin N → X) (w : Fin N → ℝ) :
    Py (FBA ℝ) :=
  if isOrthonormal then quasiProjection φ y x w else lsProjection la φ y x w

end Verif.Magic
