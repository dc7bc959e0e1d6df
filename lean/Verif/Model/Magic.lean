import Verif.Model.Bases
import Mathlib.LinearAlgebra.Matrix.NonsingularInverse
import Mathlib.Data.List.MinMax
import Mathlib.Data.Fin.Tuple.Basic
import Mathlib.Data.List.FinRange

/-!
# Model of `tensap/linear_algebra/magic_indices.py` and of the interpolation in `functional_basis.py`

The arithmetic is exact, in a linearly ordered field `K`. `np.linalg.solve(A, B)` is `A⁻¹ B` when `det A ≠ 0` and raises
`LinAlgError` (a `ValueError`) otherwise. The lists `I0`, `J` of length `k` are functions on `Fin k`; `append` is `Fin.snoc`.
-/

namespace Verif.Magic

open Verif.Arr Verif.Bases Matrix

variable {K : Type} [Field K] [LinearOrder K] {N M : Nat}

/-- `np.argmax` of a vector: the first index of the greatest entry; `ValueError` for an empty vector. -/
def argmaxFin {n : Nat} (v : Fin n → K) : Py (Fin n) :=
  match (List.finRange n).argmax v with
  | some i => .ok i
  | none => .error .valueError

/-- `np.max` of absolute values (starting from 0 changes nothing); the empty case is handled by the callers. -/
def maxAbs (l : List K) : K := (l.map abs).foldr max 0

/-- `np.matmul(F[:, J], np.linalg.solve(F[np.ix_(I0, J)], F[I0, :]))` (magic_indices.py l.82, 91). -/
noncomputable def crossG {k : Nat} (F : Matrix (Fin N) (Fin M) K) (I : Fin k → Fin N) (J : Fin k → Fin M) :
    Py (Matrix (Fin N) (Fin M) K) :=
  if (F.submatrix I J).det = 0 then .error .valueError
  else .ok (F.submatrix id J * ((F.submatrix I J)⁻¹ * F.submatrix I id))

/-- The choice of a pivot, option `left_right` (magic_indices.py l.78-79). -/
def pickLR (F G : Matrix (Fin N) (Fin M) K) : Py (Fin N × Fin M) :=
  if M = 0 then .error .valueError
  else do
    let i ← argmaxFin (fun i => maxAbs ((List.finRange M).map (fun j => F i j - G i j)))
    let j ← argmaxFin (fun j => |F i j - G i j|)
    .ok (i, j)

/-- The choice of a pivot, option `left` (magic_indices.py l.88-90): `F[:, :k+1]`; column `k` must exist. -/
def pickL (k : Nat) (F G : Matrix (Fin N) (Fin M) K) : Py (Fin N × Fin M) := do
  if M = 0 then .error .valueError
  else do
    let i ← argmaxFin (fun i => maxAbs (((List.finRange M).filter (fun j => j.val < k + 1)).map (fun j => F i j - G i j)))
    if h : k < M then .ok (i, ⟨k, h⟩) else .error .indexError

/-- The loops of magic_indices.py l.73-82 and l.84-91, `pick k` being the choice of the pivot at iteration `k`. -/
noncomputable def loop (F : Matrix (Fin N) (Fin M) K)
    (pick : Nat → Matrix (Fin N) (Fin M) K → Py (Fin N × Fin M)) :
    (n : Nat) → Py ((Fin n → Fin N) × (Fin n → Fin M) × Matrix (Fin N) (Fin M) K)
  | 0 => .ok (Fin.elim0, Fin.elim0, 0)
  | k + 1 => do
    let (I, J, G) ← loop F pick k
    let (i, j) ← pick k G
    let I' : Fin (k + 1) → Fin N := Fin.snoc I i
    let J' : Fin (k + 1) → Fin M := Fin.snoc J j
    let G' ← crossG F I' J'
    .ok (I', J', G')

/-- `option`. -/
inductive Option' where
  | leftRight | left | right | other

/-- `magic_indices(F, n, option)` with `option="left"`. -/
noncomputable def magicLeft (F : Matrix (Fin N) (Fin M) K) (n : Nat) : Py ((Fin n → Fin N) × (Fin n → Fin M)) := do
  let (I, J, _) ← loop F (fun k G => pickL k F G) n
  .ok (I, J)

/-- `magic_indices(F, n, option)` (magic_indices.py l.27-96) with a given `n`; the default is `min(F.shape)`. -/
noncomputable def magicIndices (F : Matrix (Fin N) (Fin M) K) (n : Nat) : Option' → Py ((Fin n → Fin N) × (Fin n → Fin M))
  | .leftRight => do
    let (I, J, _) ← loop F (fun _ G => pickLR F G) n
    .ok (I, J)
  | .left => magicLeft F n
  | .right => do
    let (J, I) ← magicLeft Fᵀ n
    .ok (I, J)
  | .other => .error .valueError

/-! ### `FunctionalBasis` -/

variable {X : Type} {c : Nat}

/-- `basis.eval(x)` for `N` points. -/
def evalBasis (φ : X → Fin c → K) (x : Fin N → X) : Matrix (Fin N) (Fin c) K := fun i j => φ (x i) j

/-- `magic_points(x)` (functional_basis.py l.397-417) without `J`, for given points: the points, their positions and the Lebesgue
constant. -/
noncomputable def magicPoints (φ : X → Fin c → K) (x : Fin N → X) :
    Py ((Fin (min N c) → X) × (Fin (min N c) → Fin N) × K) := do
  if N < c then .error .assertionError
  else
    let F := evalBasis φ x
    let (ind, _) ← magicIndices F (min N c) .leftRight
    let points := fun a => x (ind a)
    let hx := (evalBasis φ points)ᵀ
    if h : min N c = c then
      let hx : Matrix (Fin c) (Fin c) K := Matrix.of (fun a b => hx a (b.cast h.symm))
      if hx.det = 0 then .error .valueError
      else if N = 0 then .error .valueError
      else
        let A := (hx⁻¹ * Fᵀ)ᵀ
        .ok (points, ind, maxAbs ((List.finRange N).map (fun i => ∑ j, |A i j|)))
    else .error .valueError

/-- A matrix as an array. -/
def toArr {n m : Nat} (A : Matrix (Fin n) (Fin m) K) : Arr K :=
  ⟨[n, m], fun ij => if h : ij.getD 0 0 < n ∧ ij.getD 1 0 < m then A ⟨_, h.1⟩ ⟨_, h.2⟩ else 0⟩

/-- `interpolate(y, x)` (functional_basis.py l.137-151) for `y` given as an array with `m` columns (one column for a vector) and as
many points as basis functions (`np.linalg.solve` refuses other numbers). -/
noncomputable def interpolate {m : Nat} (φ : X → Fin c → K) (y : Matrix (Fin c) (Fin m) K) (x : Fin c → X) : Py (FBA K) :=
  let hx := evalBasis φ x
  if hx.det = 0 then .error .valueError
  else FBA.mk' (toArr (hx⁻¹ * y)) c [m]

end Verif.Magic
