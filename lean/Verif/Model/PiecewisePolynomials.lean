import Verif.Model.Polynomials
import Mathlib.Analysis.SpecialFunctions.Trigonometric.Basic
import Mathlib.Analysis.SpecialFunctions.Log.Base
import Mathlib.Algebra.Order.Floor.Semiring

/-!
# Model of `tensap/approximation/bases/piecewise_polynomial_functional_basis.py` and `tensap/tools/chebyshev_points.py`

An array of evaluations has one row per point in the code; here one row is computed for one point `x`, the code treats the
rows independently. Floating point rounding is not modelled.
-/

namespace Verif.Piecewise

open Verif.Polynomials

noncomputable section

/-- `PiecewisePolynomialFunctionalBasis` (piecewise_polynomial_functional_basis.py l.31-60): the attributes `points` and
`p`. -/
structure PPB where
  points : List ℝ
  p : List Nat

/-- The constructor for a scalar `p` (piecewise_polynomial_functional_basis.py l.56-57). -/
def ofScalar (points : List ℝ) (p : Nat) : PPB := ⟨points, List.replicate (points.length - 1) p⟩

/-- The number of elements `self.points.size - 1`. -/
def PPB.ne (b : PPB) : Nat := b.points.length - 1

/-- `p1[i]`, `p1 = self.points[:-1]`, for a valid `i` (l.68). -/
def PPB.left (b : PPB) (i : Nat) : ℝ := b.points.getD i 0

/-- `h[i]`, `h = self.points[1:] - self.points[:-1]`, for a valid `i` (l.68-70). -/
def PPB.size (b : PPB) (i : Nat) : ℝ := b.points.getD (i + 1) 0 - b.points.getD i 0

/-- `cardinal()` (l.122-126). -/
def PPB.cardinal (b : PPB) : Nat := (b.p.map (· + 1)).sum

/-- `np.sum(self.p[:i] + 1)` (l.83, l.111, l.163). -/
def PPB.offset (b : PPB) (i : Nat) : Nat := ((b.p.take i).map (· + 1)).sum

open Classical in
/-- The loop of `element_number(x)` (l.201-203). -/
def locate (points : List ℝ) (n : Nat) (x : ℝ) : Nat :=
  (List.range n).foldl (fun pos i => if points.getD i 0 ≤ x ∧ x < points.getD (i + 1) 0 then i else pos) 0

open Classical in
/-- `element_number(x)` (l.194-206). With a single point the code answers `-1` or `0`, and with none it fails: the
evaluation fails in both cases, see `evalRow`; this function is meant for at least two points. -/
def PPB.elementNumber (b : PPB) (x : ℝ) : Nat :=
  let pos := locate b.points b.ne x
  let pos := if b.points.getLastD 0 ≤ x then b.ne - 1 else pos
  if x < b.points.headD 0 then 0 else pos

/-- `hx[rows, J] = values` with `J = offset + np.arange(n)`. -/
def setBlock (hx : List ℝ) (offset n : Nat) (v : Nat → ℝ) : List ℝ :=
  hx.mapIdx (fun c w => if offset ≤ c ∧ c < offset + n then v (c - offset) else w)

/-- The body of the loop over the elements (l.80-84 and l.108-115), for a row whose element is `pos`. -/
def PPB.fillStep (b : PPB) (pos : Nat) (v : Nat → ℝ) (hx : List ℝ) (i : Nat) : Py (List ℝ) :=
  if pos = i then
    match b.p[i]? with
    | none => .error .indexError
    | some pi => .ok (setBlock hx (b.offset i) (pi + 1) v)
  else .ok hx

/-- The loop over the elements (l.78-84 and l.106-115). -/
def PPB.fill (b : PPB) (pos : Nat) (v : Nat → ℝ) : Py (List ℝ) :=
  (List.range b.ne).foldlM (b.fillStep pos v) (List.replicate b.cardinal 0)

/-- `hx[:, indices]` (l.86-87). -/
def pick (indices : Option (List Nat)) (hx : List ℝ) : Py (List ℝ) :=
  match indices with
  | none => .ok hx
  | some ind => ind.mapM (fun k => match hx[k]? with | none => .error .indexError | some v => .ok v)

/-- One row of `eval(x, indices)` (l.62-89). A division by the length of an element of length zero gives 0 here. -/
def PPB.evalRow (b : PPB) (x : ℝ) (indices : Option (List Nat) := none) : Py (List ℝ) :=
  if b.ne = 0 then .error .indexError
  else do
    let pos := b.elementNumber x
    let u := (x - b.left pos) / b.size pos
    let m ← npMax b.p
    let pu ← (Meas.lebesgue 0 1).orthonormalPolynomials.polyval (List.range (m + 1)) u
    let hx ← b.fill pos (fun j => at' pu j / Real.sqrt (b.size pos))
    pick indices hx

/-- One row of `eval_derivative(k, x, indices)` (l.91-120). -/
def PPB.evalDerivativeRow (b : PPB) (k : Nat) (x : ℝ) (indices : Option (List Nat) := none) : Py (List ℝ) :=
  if b.ne = 0 then .error .indexError
  else do
    let pos := b.elementNumber x
    let u := (x - b.left pos) / b.size pos
    let m ← npMax b.p
    let pu ← (Meas.lebesgue 0 1).orthonormalPolynomials.dnPolyval k (List.range (m + 1)) u
    let hx ← b.fill pos (fun j => at' pu j / Real.sqrt (b.size pos) * (b.size pos) ^ (-(k : ℤ)))
    pick indices hx

/-- `mean()` (l.135-145): `np.concatenate((0, self.p[:-1] + 1))` refuses the number 0. -/
def PPB.mean (_ : PPB) : Py (List ℝ) := .error .valueError

/-- `chebyshev_points(n)` (chebyshev_points.py l.25-45). -/
def chebyshevPoints (n : Nat) : List ℝ :=
  (List.range n).map (fun k : Nat => Real.cos (Real.pi * (2 * ((k : ℝ) + 1) - 1) / 2 / n))

/-- `chebyshev_points(n, s)` (chebyshev_points.py l.43-44). -/
def chebyshevPointsOn (n : Nat) (s0 s1 : ℝ) : List ℝ :=
  (chebyshevPoints n).map (fun x => 1 / 2 * (s0 + s1) + 1 / 2 * (s1 - s0) * x)

/-- One step of the loop of `interpolation_points()` (l.160-164); `u[loc]` is the array computed for the degree
`self.p[i]`. -/
def PPB.interpStep (b : PPB) (x : List ℝ) (i : Nat) : Py (List ℝ) :=
  match b.p[i]? with
  | none => .error .indexError
  | some pi =>
    let ui := (chebyshevPoints (pi + 1)).map (fun t => 1 / 2 * (1 + t))
    .ok (setBlock x (b.offset i) (pi + 1) (fun j => b.left i + at' ui j * b.size i))

/-- `interpolation_points()` (l.147-166). -/
def PPB.interpolationPoints (b : PPB) : Py (List ℝ) :=
  (List.range b.ne).foldlM b.interpStep (List.replicate b.cardinal 0)

/-- `np.linspace(a, b, n)`. -/
def linspace (a b : ℝ) (n : Nat) : List ℝ :=
  if n = 1 then [a] else (List.range n).map (fun i : Nat => a + (i : ℝ) * ((b - a) / ((n - 1 : Nat) : ℝ)))

/-- `np(a, b, n, p)` (l.217-223), for a scalar `p`. -/
def npMesh (a b : ℝ) (n p : Nat) : PPB := ofScalar (linspace a b (n + 1)) p

/-- `hp(a, b, h, p)` (l.208-215), for a scalar `p`. -/
def hpMesh (a b h : ℝ) (p : Nat) : PPB := npMesh a b ⌈(b - a) / h⌉₊ p

/-- The points `xi` and the degrees `pi` of an interval between two singularities (l.243-252); `ne` is the number of
levels, 0 standing also for a negative one (`np.arange` of it is empty as well). -/
def meshBoth (ne : Nat) : List ℝ × List Nat :=
  ([0] ++ (List.range (ne - 1)).map (fun k : Nat => (1 / 2 : ℝ) ^ (ne - k)) ++ [1 / 2]
      ++ (List.range (ne - 1)).map (fun k : Nat => 1 - (1 / 2 : ℝ) ^ (k + 2)) ++ [1],
    List.range ne ++ (List.range ne).map (fun k => ne - 1 - k))

/-- The same when only the left end is a singularity (l.254-256). -/
def meshLeft (ne : Nat) : List ℝ × List Nat :=
  let xi := [0] ++ (List.range ne).map (fun k : Nat => (1 / 2 : ℝ) ^ (ne - k)) ++ [1]
  (xi, List.range (xi.length - 1))

/-- The same when only the right end is a singularity (l.258-259). -/
def meshRight (ne : Nat) : List ℝ × List Nat :=
  let xi := [0] ++ (List.range ne).map (fun k : Nat => 1 - (1 / 2 : ℝ) ^ (k + 1)) ++ [1]
  (xi, (List.range (xi.length - 1)).map (fun k => xi.length - 2 - k))

open Classical in
/-- The choice of the mesh of an interval (l.242-259). When neither end is a singularity `xi` keeps the value of the
previous interval. Only singularities in `[a, b]` are modelled: this interval is then the only one, `xi` is undefined and
the code raises `UnboundLocalError`, represented by `attributeError`. -/
def meshOf (s : List ℝ) (ne : Nat) (ai bi : ℝ) : Py (List ℝ × List Nat) :=
  if ai ∈ s ∧ bi ∈ s then .ok (meshBoth ne)
  else if ai ∈ s then .ok (meshLeft ne)
  else if bi ∈ s then .ok (meshRight ne)
  else .error .attributeError

/-- The loop over the intervals of `e` (l.237-264); the lists `x` and `p` are concatenated at the end (l.266-267). -/
def meshLoop (s : List ℝ) (ne : Nat) : List ℝ → Py (List ℝ × List Nat)
  | ai :: bi :: rest => do
    let m ← meshOf s ne ai bi
    let xi := if rest = [] then m.1 else m.1.dropLast
    let r ← meshLoop s ne (bi :: rest)
    .ok (xi.map (fun t => ai + t * (bi - ai)) ++ r.1, m.2 ++ r.2)
  | _ => .ok ([], [])

/-- `np.unique`. -/
def npUnique (l : List ℝ) : List ℝ := (l.insertionSort (· ≤ ·)).dedup

/-- `singularityhp_adapted(a, b, s, h)` (l.225-268), for `h > 0`. `ne = int(np.ceil(np.log2(1 / h)))`. The sequence `e` has
at least one point; with only one the concatenation of no array is refused. -/
def singularityHp (a b : ℝ) (s : List ℝ) (h : ℝ) : Py PPB := do
  let e := npUnique (a :: s ++ [b])
  if e.length ≤ 1 then .error .valueError
  else
    let r ← meshLoop s ⌈Real.logb 2 (1 / h)⌉.toNat e
    .ok ⟨r.1, r.2⟩

end

end Verif.Piecewise
