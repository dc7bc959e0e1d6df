import Verif.Model.Losses

/-!
# Model of `Function.test_error` and `Function.random` (functions/function.py l.279-314, l.362-420)

Real numbers. The evaluations of a function have one row per point: arrays of shape `[n]` or `[n, m]`; the sample drawn by a measure
is a parameter. A quotient by zero is 0 here (`nan` or `inf` with a warning in NumPy).
-/

namespace Verif.TestError

open Verif.Arr Verif.Losses

variable {M : Type}

/-- The array of the test points: its rows and its number of columns. -/
structure Points where
  rows : List (List ℝ)
  cols : Nat

/-- The parameter `n`: a number of points or the points. -/
inductive Count where
  | num (n : Nat)
  | points (x : Points)

/-- `np.size(n)`. -/
def Count.size : Count → Nat
  | .num _ => 1
  | .points x => x.rows.length * x.cols

/-- The parameter `g`: a `Function` with its measure, or an array of evaluations. -/
inductive Ref (M : Type) where
  | fn (g : Points → Arr ℝ) (measure : Option M)
  | evals (a : Arr ℝ)

/-- `np.reshape(y, (n, -1), order="F")` (l.410-411), for an array with one row per point. -/
def toRows (n : Nat) (a : Arr ℝ) : Py (Arr ℝ) :=
  match a.shape with
  | [k] => if k = n then .ok ⟨[n, 1], fun i => a.get [i.getD 0 0]⟩ else .error .valueError
  | [k, _] => if k = n then .ok a else .error .valueError
  | _ => .error .valueError

/-- `np.linalg.norm(a)` for a matrix. -/
noncomputable def frobenius (a : Arr ℝ) : ℝ :=
  Real.sqrt (∑ i ∈ Finset.range (a.shape.getD 0 0), ∑ j ∈ Finset.range (a.shape.getD 1 0), a.get [i, j] ^ 2)

/-- `np.sqrt(np.sum(a ** 2, 1))[i]`. -/
noncomputable def rowNorm (a : Arr ℝ) (i : Nat) : ℝ := Real.sqrt (∑ j ∈ Finset.range (a.shape.getD 1 0), a.get [i, j] ^ 2)

/-- `np.linalg.norm(np.sqrt(np.sum(a ** 2, 1)), np.inf)`, for at least one row. -/
noncomputable def maxRow (a : Arr ℝ) : ℝ := (List.range (a.shape.getD 0 0)).foldl (fun m i => max m (rowNorm a i)) 0

/-- The errors from the evaluations (l.410-416); the maximum of an empty array is refused. -/
noncomputable def errors (n : Nat) (fx gx : Arr ℝ) : Py (ℝ × ℝ) := do
  let f ← toRows n fx
  let g ← toRows n gx
  let d ← sub2 f g
  if n = 0 then .error .valueError
  else .ok (frobenius d / frobenius g, maxRow d / maxRow g)

/-- The branch with given points (l.396-416). -/
noncomputable def atPoints (f : Points → Arr ℝ) (g : Ref M) (x : Points) : Py (ℝ × ℝ) :=
  match g with
  | .fn g _ => errors x.rows.length (f x) (g x)
  | .evals a => if a.shape.headD 0 = x.rows.length then errors x.rows.length (f x) a else .error .assertionError

/-- The branch with a measure (l.388-391): the recursive call is made with the evaluations of `g`. For one number as the only point none
of the branches is taken and the variables `err_l2`, `err_linf` are not defined: `none` stands for `UnboundLocalError`. -/
noncomputable def withMeasure (random : M → Count → Points) (f : Points → Arr ℝ) (g : Ref M) (n : Count) (m : M) :
    Py (Option (ℝ × ℝ)) :=
  match g with
  | .evals _ => .error .attributeError
  | .fn g _ =>
    if (Count.points (random m n)).size = 1 then .ok none
    else do
      let e ← atPoints (M := M) f (.evals (g (random m n))) (random m n)
      .ok (some e)

/-- `test_error(g, n, measure)` (l.388-420) of a function `f` with the measure `fm`. -/
noncomputable def testError (random : M → Count → Points) (f : Points → Arr ℝ) (fm : Option M) (g : Ref M) (n : Count)
    (measure : Option M := none) : Py (Option (ℝ × ℝ)) :=
  match measure with
  | some m => withMeasure random f g n m
  | none =>
    match g, n with
    | .fn g gm, n =>
      if n.size = 1 then
        match fm, gm with
        | some m, _ => withMeasure random f (.fn g gm) n m
        | none, some m => withMeasure random f (.fn g gm) n m
        -- `test_error(g, n, None)` calls itself with the same arguments: `RecursionError`
        | none, none => .error .nonTermination
      else
        match n with
        | .points x => do
          let e ← atPoints f (.fn g gm) x
          .ok (some e)
        | .num _ => .ok none
    | .evals a, n =>
      if n.size = 1 then .ok none
      else
        match n with
        | .points x => do
          let e ← atPoints (M := M) f (.evals a) x
          .ok (some e)
        | .num _ => .ok none

/-- A measure: a `ProbabilityMeasure`, or another object, with or without a method `random` (`LebesgueMeasure` and `DiscreteMeasure` have
one). -/
inductive Meas (M : Type) where
  | prob (m : M)
  | other (m : Option M)

/-- `measure.random(n)`; an object without this method raises `AttributeError`. -/
def draw (random : M → Nat → Points) (m : Meas M) (n : Nat) : Py Points :=
  match m with
  | .prob m => .ok (random m n)
  | .other (some m) => .ok (random m n)
  | .other none => .error .attributeError

/-- `random(n, measure)` (l.305-314) of a function with the measure `self`. -/
def randomFn (random : M → Nat → Points) (f : Points → Arr ℝ) (self : Meas M) (n : Nat) (measure : Option (Meas M) := none) :
    Py (Arr ℝ × Points) :=
  match measure, self with
  | none, .prob m => do
    let x ← draw random (.prob m) n
    .ok (f x, x)
  | some m, .prob _ => do
    let x ← draw random m n
    .ok (f x, x)
  | _, .other _ => .error .valueError

end Verif.TestError
