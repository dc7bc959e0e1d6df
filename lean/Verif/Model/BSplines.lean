import Mathlib.Analysis.Real.Sqrt
import Verif.Np

/-!
# Model of `approximation/bases/BSplines_functional_basis.py`

Real numbers. NumPy returns `nan` for a division 0/0 (repeated knots), Lean returns 0: the theorems are about increasing knots. One
point at a time, unless said otherwise. Not modelled: the measures.
-/

namespace Verif.BSplines

/-- Knot number `i`. -/
noncomputable def knot (t : List ℝ) (i : Nat) : ℝ := t.getD i 0

open Classical in
/-- `eval_sequence(x)[i, j]` (BSplines_functional_basis.py l.93-108): the function number `i` of degree `j`. -/
noncomputable def bseq (t : List ℝ) (x : ℝ) : Nat → Nat → ℝ
  | 0, i => if i < t.length - 1 then (if knot t i < x ∧ x ≤ knot t (i + 1) then 1 else 0) else 0
  | j + 1, i => if i < t.length - 1 - (j + 1) then
      (x - knot t i) / (knot t (i + (j + 1)) - knot t i) * bseq t x j i +
        (knot t (i + (j + 1) + 1) - x) / (knot t (i + (j + 1) + 1) - knot t (i + 1)) * bseq t x j (i + 1)
    else 0

/-- `cardinal()` (l.66). -/
def cardinal (t : List ℝ) (degree : Nat) : Nat := t.length - 1 - degree

/-- `eval(x)` (l.125-129): the values of the basis functions. -/
noncomputable def eval (t : List ℝ) (degree : Nat) (x : ℝ) : List ℝ := (List.range (t.length - 1 - degree)).map (bseq t x degree)

/-- The array `dBx` of `eval_derivative` (l.150-165) after `k` steps. -/
noncomputable def dseq (t : List ℝ) (x : ℝ) : Nat → Nat → Nat → ℝ
  | 0, j, i => bseq t x j i
  | _ + 1, 0, _ => 0
  | k + 1, j + 1, i => if i < t.length - 1 - (j + 1) then
      ((k + 1 : Nat) : ℝ) / (knot t (i + (j + 1)) - knot t i) * dseq t x k j i -
        ((k + 1 : Nat) : ℝ) / (knot t (i + (j + 1) + 1) - knot t (i + 1)) * dseq t x k j (i + 1) +
        (x - knot t i) / (knot t (i + (j + 1)) - knot t i) * dseq t x (k + 1) j i +
        (knot t (i + (j + 1) + 1) - x) / (knot t (i + (j + 1) + 1) - knot t (i + 1)) * dseq t x (k + 1) j (i + 1)
    else 0

/-- `eval_derivative(n, x)` (l.147-168). -/
noncomputable def evalDerivative (t : List ℝ) (degree n : Nat) (x : ℝ) : List ℝ :=
  (List.range (t.length - 1 - degree)).map (dseq t x n degree)

/-- `cardinal_bspline(m)` (l.185): the knots. -/
noncomputable def cardinalKnots (m : Nat) : List ℝ := (List.range (m + 2)).map (fun i : Nat => (i : ℝ))

/-- `with_extra_knots(t, m)` (l.204-207): the knots. -/
noncomputable def extraKnots (t : List ℝ) (m : Nat) : List ℝ :=
  (List.range m).map (fun i : Nat => t.getD 0 0 + (((i : ℝ) - m) * (t.getD 1 0 - t.getD 0 0))) ++ t ++
    (List.range m).map (fun i : Nat => t.getD (t.length - 1) 0 + (((i : ℝ) + 1) * (t.getD (t.length - 1) 0 - t.getD (t.length - 2) 0)))

/-! ### Dilated B-splines -/

/-- The value of the only function of `psi = cardinal_bspline(m)`. -/
noncomputable def psi (m : Nat) (x : ℝ) : ℝ := (eval (cardinalKnots m) m x).getD 0 0

/-- The derivative of order `k` of the only function of `psi`. -/
noncomputable def dpsi (m k : Nat) (x : ℝ) : ℝ := (evalDerivative (cardinalKnots m) m k x).getD 0 0

/-- `DilatedBSplines(m, b).eval(i, x)` (l.239-251) for one point; `i` is the list of the pairs (level, local index). `b ** (level / 2)` is
the square root of `b ** level`. -/
noncomputable def dilatedEval (m b : Nat) (ind : List (Nat × Int)) (x : ℝ) : List ℝ :=
  ind.map (fun p => psi m (x * (b : ℝ) ^ p.1 - (p.2 : ℝ)) * Real.sqrt ((b : ℝ) ^ p.1))

/-- `DilatedBSplines(m, b).eval_derivative(k, i, x)` (l.273-285); `b ** (level * (k + 1 / 2))`. -/
noncomputable def dilatedDerivative (m b k : Nat) (ind : List (Nat × Int)) (x : ℝ) : List ℝ :=
  ind.map (fun p => dpsi m k (x * (b : ℝ) ^ p.1 - (p.2 : ℝ)) * (((b : ℝ) ^ p.1) ^ k * Real.sqrt ((b : ℝ) ^ p.1)))

/-- `indices_with_level(L)` (l.330-334): `np.arange(-m, b ** L)`. -/
def indicesWithLevel (m b L : Nat) : List (Nat × Int) := (List.range (m + b ^ L)).map (fun k : Nat => (L, (k : Int) - m))

/-- `indices_with_level_bounded_by(L)` (l.305-311). -/
def indicesBounded (m b L : Nat) : List (Nat × Int) := (List.range (L + 1)).flatMap (indicesWithLevel m b)

end Verif.BSplines
