import Verif.Model.Utils
import Mathlib.Algebra.Order.Floor.Ring
import Mathlib.Algebra.Order.Field.Basic

/-!
# Model of `tensap/functions/tensorizer.py`

One point (one row of the NumPy arrays) at a time; real numbers are the elements of an ordered field with a floor
function, so there is no rounding. The marginal distributions of `X` and `Y` are given by their functions `cdf` and
`icdf`. Not modelled: `tensorize`, `tensorized_function_functional_bases`.
-/

namespace Verif.Tensorizer

open Verif.Utils

variable {K : Type} [Field K] [LinearOrder K] [IsStrictOrderedRing K] [FloorRing K]

/-- `Tensorizer` (tensorizer.py l.46-103); `cdfX k` is `X.random_variables[k].cdf` and so on. -/
structure Tz (K : Type) where
  b : Nat
  d : Nat
  dim : Nat
  ordering : Nat
  cdfX : Nat → K → K
  icdfX : Nat → K → K
  cdfY : Nat → K → K
  icdfY : Nat → K → K

/-- `u2z(u, b, d)` (tensorizer.py l.275-310) for one number: the digits and the remainder. -/
def u2z (u : K) (b d : Nat) : Py (List Nat × K) := do
  let su := u * (b : K) ^ d
  let i : Int := min ⌊su⌋ ((b : Int) ^ d - 1)
  let y := su - (i : K)
  let rows ← integer2baseb [i] b (some d)
  .ok (rows.headD [], y)

/-- `.astype(int)`: truncation. -/
def trunc (x : K) : Int := if x < 0 then ⌈x⌉ else ⌊x⌋

/-- `z2u(z, b)` (tensorizer.py l.312-334) for one row. -/
def z2u (z : List K) (b : Nat) : Py K := do
  let d := z.length - 1
  let y := z.getD d 0
  let i ← baseb2integer [(z.take d).map trunc] b
  .ok ((y + ((i.headD 0 : Nat) : K)) * ((b : K) ^ d)⁻¹)

/-- The columns `k, k + step, ...` of a row: `i[np.arange(k, n, step)]`. -/
def stride (i : List K) (k n step : Nat) : List K :=
  ((List.range n).filter (fun m => k ≤ m ∧ (m - k) % step = 0)).map (fun m => i.getD m 0)

/-- `map(x)` (tensorizer.py l.105-149) for one point. -/
def map (t : Tz K) (x : List K) : Py (List K) := do
  let r ← (List.range t.dim).mapM (fun k => do
    let uk := t.cdfX k (x.getD k 0)
    let z ← u2z uk t.b t.d
    .ok (z.1.map (fun n : Nat => (n : K)), t.icdfY k z.2))
  let y := r.map Prod.snd
  let i := (r.map Prod.fst).flatten
  if t.ordering = 2 then
    .ok (((List.range t.d).map (fun k => stride i k i.length t.d)).flatten ++ y)
  else if t.ordering ≠ 1 then .error .valueError
  else .ok (i ++ y)

/-- The columns of the digits of the variable `k` (tensorizer.py l.166-174). -/
def digitColumns (t : Tz K) (z : List K) (k : Nat) : Py (List K) :=
  if t.ordering = 1 then .ok ((List.range t.d).map (fun j => z.getD (j + k * t.d) 0))
  else if t.ordering = 2 then .ok (stride z k (t.dim * t.d) t.dim)
  else .error .valueError

/-- `inverse_map(z)` (tensorizer.py l.151-182) for one point. -/
def inverseMap (t : Tz K) (z : List K) : Py (List K) :=
  (List.range t.dim).mapM (fun k => do
    let ik ← digitColumns t z k
    let zk := t.cdfY k (z.getD (z.length - t.dim + k) 0)
    let u ← z2u (ik ++ [zk]) t.b
    .ok (t.icdfX k u))

end Verif.Tensorizer
