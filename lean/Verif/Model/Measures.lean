import Verif.Np
import Mathlib.Algebra.Order.Field.Basic
import Mathlib.Algebra.BigOperators.Group.List.Basic

/-!
# Model of parts of `tensap/functions/measures`

`DiscreteRandomVariable` with scalar values, `RandomVariable.moment`, `RandomVariable.discretize_support`,
`ProductMeasure.__eq__`, `RandomVector.__eq__`, `FunctionalBases.__eq__`. Numbers are elements of an ordered field (no
rounding). One point at a time (the array versions act entry by entry).
-/

namespace Verif.Measures

variable {K : Type} [Field K] [LinearOrder K] [IsStrictOrderedRing K]

/-- `DiscreteRandomVariable` (discrete_random_variable.py l.25-38), scalar values. -/
structure DRV (K : Type) where
  values : List K
  probs : List K
  deriving DecidableEq

/-- `DiscreteRandomVariable.__init__` (l.41-83); `eps` is `np.finfo(float).eps`. Not modelled: a zero sum, where NumPy
divides by zero and stores `nan`. -/
def mk (eps : K) (values : List K) (probs : Option (List K)) : Py (DRV K) :=
  let n := values.length
  match probs with
  | none => .ok ⟨values, List.replicate n (1 / (n : K))⟩
  | some p =>
    if p.length ≠ n then .error .valueError
    else if ¬ (∀ x ∈ p, 0 ≤ x) then .error .valueError
    else if |p.sum - 1| > eps then .ok ⟨values, p.map (fun x => x / p.sum)⟩
    else .ok ⟨values, p⟩

/-- `cdf(x)` (l.190-214): the sum of the probabilities after `w[v > x] = 0`. -/
def cdf (X : DRV K) (x : K) : K :=
  (List.zipWith (fun v w => if v > x then 0 else w) X.values X.probs).sum

/-- `np.cumsum`. -/
def cumsum (l : List K) : List K := (l.scanl (· + ·) 0).tail

/-- `np.cumsum` of an array of booleans. -/
def countsum (l : List Bool) : List Nat := (l.scanl (fun n b => n + b.toNat) 0).tail

/-- `icdf(p)` (l.216-243): the value, of index `i`, where `cumsum(F >= p) == 1`; `none` is `-inf`. Any other number of such
indices than one does not fit the shape of `p` and raises. -/
def icdf (X : DRV K) (p : K) : Py (Option K) :=
  let v := none :: X.values.map some
  let F := cumsum (0 :: X.probs)
  let c := countsum (F.map (fun f => decide (p ≤ f)))
  let ind := (List.range c.length).filter (fun i => c.getD i 0 == 1)
  match ind with
  | [i] => .ok (v.getD i none)
  | _ => .error .valueError

/-- `mean()` (l.245-246). -/
def mean (X : DRV K) : K := (List.zipWith (· * ·) X.probs X.values).sum

/-- `var()` (l.248-261). -/
def var (X : DRV K) : K := (List.zipWith (fun p v => p * v ^ 2) X.probs X.values).sum - mean X ^ 2

/-- `get_standard_random_variable()` (l.85-99); `std` is `self.std()`, a square root of the variance. -/
def standard (eps : K) (X : DRV K) (std : K) : Py (DRV K) :=
  mk eps (X.values.map (fun v => (v - mean X) / std)) (some X.probs)

/-- `discretize_support(x)` for an array `x` (random_variable.py l.178-216): the values and the probabilities that are
handed to `DiscreteRandomVariable`; `F` is the cdf, whose values at `-inf` and `inf` are 0 and 1. -/
def discretizeSupport (F : K → K) (x : List K) : List K × List K :=
  let v := (List.zipWith (fun a b => (a + b) / 2) x.tail x.dropLast).map F
  let u := v ++ [1]
  let l := 0 :: v
  (x, List.zipWith (· - ·) u l)

/-! ### moments -/

/-- The attribute `moments` and the Gauss rules: `gauss n k` is the integral of `x ** k` by the rule with `n` points. -/
structure RV (K : Type) where
  moments : List K
  gauss : Nat → Nat → K

/-- `moment(ind)` (random_variable.py l.362-400) for nonnegative orders: the moments, and the random variable that
`nargout=2` returns with them. `np.max` of an empty list raises. `ceil((m + 1) / 2)` is `(m + 2) / 2`. -/
def moment (X : RV K) (ind : List Nat) : Py (List K × RV K) :=
  match ind.max? with
  | none => .error .valueError
  | some m =>
    let out := if X.moments.length ≥ m + 1 then ind.map (fun i => X.moments.getD i 0)
      else ind.map (fun i => X.gauss ((m + 2) / 2) i)
    .ok (out, { X with moments := out })

/-! ### comparisons -/

/-- `np.all([x == y for x, y in zip(a, b)])`: `ProductMeasure.__eq__` (product_measure.py l.75-76). -/
def productEq {α : Type} [DecidableEq α] (a b : List α) : Bool := (a.zip b).all (fun p => decide (p.1 = p.2))

/-- `RandomVector.__eq__` (random_vector.py l.91-106). The copulas are not compared. -/
def vectorEq {α β : Type} [DecidableEq α] (a b : List α × β) : Bool :=
  if a.1.length ≠ b.1.length then false else (a.1.zip b.1).all (fun p => decide (p.1 = p.2))

/-- `FunctionalBases.__eq__` (functional_bases.py l.237-245): the bases and the measures. -/
def basesEq {α β : Type} [DecidableEq α] [DecidableEq β] (a b : List α × List β) : Bool :=
  productEq a.1 b.1 && productEq a.2 b.2

end Verif.Measures
