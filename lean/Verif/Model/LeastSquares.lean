import Verif.Np
import Mathlib.Analysis.Real.Sqrt
import Mathlib.Data.List.FinRange
import Mathlib.LinearAlgebra.Matrix.NonsingularInverse
import Mathlib.LinearAlgebra.Matrix.Trace

/-!
# Model of `tensap/approximation/learning/linear_model_learning_square_loss.py`

Matrices are `Matrix (Fin N) (Fin P) ℝ`, the observations a vector (one output; several outputs are not modelled).
The functions of `np.linalg` and `sklearn.model_selection.KFold` are parameters. Infinities and nan are explicit where the code
produces them.
-/

namespace Verif.LeastSquares

open Matrix

/-- A floating point result: a number, `inf` or `nan`. -/
inductive Ext where
  | val (x : ℝ)
  | inf
  | nan

namespace Ext

/-- `x / d` with `np.errstate(divide="ignore", invalid="ignore")`; the sign of an infinity is dropped, because the code
only uses squares of the result. -/
noncomputable def div (x d : ℝ) : Ext :=
  if d = 0 then (if x = 0 then nan else inf) else val (x / d)

/-- `e / d` for a nonnegative `e`. -/
noncomputable def divBy (e : Ext) (d : ℝ) : Ext :=
  match e with
  | val x => div x d
  | inf => inf
  | nan => nan

/-- `e * c` for `c > 0`. -/
noncomputable def scale (e : Ext) (c : ℝ) : Ext :=
  match e with
  | val x => val (x * c)
  | inf => inf
  | nan => nan

/-- `np.sqrt(e)`. -/
noncomputable def sqrt (e : Ext) : Ext :=
  match e with
  | val x => val (Real.sqrt x)
  | inf => inf
  | nan => nan

/-- `x + y` of squares. -/
noncomputable def add : Ext → Ext → Ext
  | nan, _ => nan
  | _, nan => nan
  | inf, _ => inf
  | _, inf => inf
  | val x, val y => val (x + y)

/-- `e ** 2`. -/
noncomputable def sq : Ext → Ext
  | val x => val (x ^ 2)
  | inf => inf
  | nan => nan

/-- `np.sum`. -/
noncomputable def sum (l : List Ext) : Ext := l.foldr add (val 0)

/-- `np.mean(delta ** 2)`. -/
noncomputable def meanSqs (l : List Ext) : Ext := (sum (l.map sq)).divBy l.length

/-- `x < y` for comparisons of errors (false when a nan is involved). -/
def lt : Ext → Ext → Prop
  | val x, val y => x < y
  | val _, inf => True
  | _, _ => False

/-- `nan`. -/
def isNan : Ext → Bool
  | nan => true
  | _ => false

end Ext

open Classical in
/-- `np.argmin`: the index of the first nan if there is one, otherwise of the first smallest element. -/
noncomputable def argmin : List Ext → Nat
  | [] => 0
  | e :: l =>
    if e.isNan then 0
    else match l with
      | [] => 0
      | e' :: l' =>
        let j := argmin (e' :: l')
        let m := (e' :: l').getD j Ext.nan
        if m.isNan ∨ Ext.lt m e then j + 1 else 0

/-- The functions of `np.linalg` and of sklearn used by the solver. `illCond r` is `1 / np.linalg.cond(r) < eps`; `folds k N` the
test sets of `KFold(n_splits=k, shuffle=True).split(A)` for `N` samples. -/
structure La where
  solve : {m n : Nat} → Matrix (Fin m) (Fin n) ℝ → (Fin m → ℝ) → Py (Fin n → ℝ)
  lstsq : {m n : Nat} → Matrix (Fin m) (Fin n) ℝ → (Fin m → ℝ) → (Fin n → ℝ)
  inv : {m n : Nat} → Matrix (Fin m) (Fin n) ℝ → Py (Matrix (Fin n) (Fin m) ℝ)
  pinv : {m n : Nat} → Matrix (Fin m) (Fin n) ℝ → Matrix (Fin n) (Fin m) ℝ
  qr : {m n : Nat} → Matrix (Fin m) (Fin n) ℝ →
    Matrix (Fin m) (Fin (min m n)) ℝ × Matrix (Fin (min m n)) (Fin n) ℝ
  illCond : {m n : Nat} → Matrix (Fin m) (Fin n) ℝ → Bool
  folds : Nat → (N : Nat) → List (List (Fin N))

/-- `try: return a except Exception: return b`. -/
def orElse {α : Type} (a : Py α) (b : α) : α :=
  match a with
  | .ok x => x
  | .error _ => b

/-- `linear_solver` (`"solve"` or `"qr"`). -/
inductive Solver where
  | solve
  | qr
  deriving DecidableEq

/-- `error_estimation_type`, with `error_estimation_options["number_of_folds"]` (`none` when the key is absent). -/
inductive ErrType where
  | residuals
  | leaveOut
  | kFold (number : Option Nat)
  | other

/-- The matrix factors given to `_compute_cv_error`: `(C,)` or `(q_A, r_A)` (l.546-550). -/
inductive Factors (N P : Nat) where
  | solve (C : Matrix (Fin P) (Fin P) ℝ)
  | qr (q : Matrix (Fin N) (Fin (min N P)) ℝ) (r : Matrix (Fin (min N P)) (Fin P) ℝ)

/-- The attributes of the learning object used below: `linear_solver`, `error_estimation`, `error_estimation_type`,
`error_estimation_options["correction"]`, `model_selection_options["stop_if_error_increase"]`. The option `"gram_matrix"` is
absent. -/
structure Opts where
  solver : Solver
  estimate : Bool
  kind : ErrType
  correction : Bool
  stopIfIncrease : Bool

variable {N P : Nat}

/-- `np.mean(y)` of a vector. -/
noncomputable def mean {n : Nat} (y : Fin n → ℝ) : ℝ := (∑ i, y i) / n

/-- `second_moment = np.var(y, 0) + np.mean(y, 0) ** 2` (linear_model_learning_square_loss.py l.194). -/
noncomputable def secondMoment (y : Fin N → ℝ) : ℝ :=
  mean (fun i => (y i - mean y) ^ 2) + mean y ^ 2

/-- The error type used after l.530-534: `k_fold` with as many folds as samples becomes `leave_out`; the default number of folds is
`min(10, N)`. The code stores the change in the object: it is found again by the later calls, with the same `N`. -/
def effective (kind : ErrType) (N : Nat) : ErrType :=
  match kind with
  | .kFold number =>
    let k := number.getD (min 10 N)
    if k = N then .leaveOut else .kFold (some k)
  | k => k

/-- `T` (l.567-570): the leverages. -/
def leverage (A : Matrix (Fin N) (Fin P) ℝ) : Factors N P → Fin N → ℝ
  | .solve C => fun i => ∑ p, Aᵀ p i * (C * Aᵀ) p i
  | .qr q _ => fun i => ∑ l, q i l ^ 2

/-- `H` (l.596-599). -/
def hat (A : Matrix (Fin N) (Fin P) ℝ) : Factors N P → Matrix (Fin N) (Fin N) ℝ
  | .solve C => A * (C * Aᵀ)
  | .qr q _ => q * qᵀ

/-- `delta[test] = delta_loc` (l.615-616). -/
def scatter (delta : Fin N → ℝ) (test : List (Fin N)) (loc : Fin test.length → ℝ) : Fin N → ℝ :=
  fun i => (List.finRange test.length).foldl (fun v k => if test.get k = i then loc k else v) (delta i)

/-- One fold (l.601-616): the system that is solved. -/
noncomputable def foldStep (la : La) (A : Matrix (Fin N) (Fin P) ℝ) (y : Fin N → ℝ) (sol : Fin P → ℝ)
    (H : Matrix (Fin N) (Fin N) ℝ) (st : List ℝ × (Fin N → ℝ)) (test : List (Fin N)) : Py (List ℝ × (Fin N → ℝ)) := do
  let loc ← la.solve (1 - H.submatrix test.get test.get) (fun k => y (test.get k) - (A *ᵥ sol) (test.get k))
  .ok (st.1 ++ [mean (fun k => loc k ^ 2)], scatter st.2 test loc)

/-- The correction factor (l.635-667), `none` when it is not applied. -/
noncomputable def correction (la : La) (o : Opts) (f : Factors N P) : Option ℝ :=
  let ill : Bool := match f with
    | .qr _ r => la.illCond r
    | .solve _ => false
  if ill then none
  else if o.correction = false then none
  else if N = P then none
  else
    let C : Matrix (Fin P) (Fin P) ℝ := match f with
      | .solve C => C
      | .qr _ r => let ir := orElse (la.inv r) (la.pinv r); ir * irᵀ
    let corr : ℝ := (N : ℝ) / ((N : ℝ) - P) * (1 + C.trace)
    if 0 < corr then some corr else none

/-- The end of `_compute_cv_error` (l.628-671): relative error, correction, square root. -/
noncomputable def finish (la : La) (o : Opts) (f : Factors N P) (err : Ext) (moment : ℝ) : Ext :=
  let e := err.divBy moment
  match correction la o f with
  | none => e.sqrt
  | some c => (e.scale c).sqrt

/-- `_compute_cv_error` (l.467-671), with the factors given (as all the callers do). -/
noncomputable def cvError (la : La) (o : Opts) (A : Matrix (Fin N) (Fin P) ℝ) (y : Fin N → ℝ) (moment : ℝ) (sol : Fin P → ℝ)
    (f : Factors N P) : Py (Ext × (Fin N → Ext)) :=
  match effective o.kind N with
  | .leaveOut =>
    if N < P + 1 then .ok (.inf, fun _ => .inf)
    else
      let delta : Fin N → Ext := fun i => Ext.div (y i - (A *ᵥ sol) i) (1 - leverage A f i)
      .ok (finish la o f (Ext.meanSqs ((List.finRange N).map delta)) moment, delta)
  | .kFold number =>
    let k := min N (number.getD 0)
    if k = 0 ∨ (N : ℝ) * (1 - 1 / k) < P then .ok (.inf, fun _ => .inf)
    else do
      let st ← (la.folds k N).foldlM (foldStep la A y sol (hat A f)) ([], fun _ => 0)
      .ok (finish la o f (.val (st.1.sum / st.1.length)) moment, fun i => .val (st.2 i))
  | _ => .error .notImplemented

/-- The coefficients and the factors of `_solve_ols` and `_select_optimal_path` with `linear_solver == "qr"`
(l.186-191, l.418-425). -/
def solveQr (la : La) (A : Matrix (Fin N) (Fin P) ℝ) (y : Fin N → ℝ) : (Fin P → ℝ) × Factors N P :=
  let q := (la.qr A).1
  let r := (la.qr A).2
  (orElse (la.solve r (qᵀ *ᵥ y)) (la.lstsq r (qᵀ *ᵥ y)), .qr q r)

/-- The coefficients of `_solve_ols` with `linear_solver == "solve"` (l.180-185) and the factor given to `_compute_cv_error`
(l.199-206). -/
def solveNormal (la : La) (A : Matrix (Fin N) (Fin P) ℝ) (y : Fin N → ℝ) : (Fin P → ℝ) × Factors N P :=
  let B := Aᵀ * A
  (orElse (la.solve B (Aᵀ *ᵥ y)) (la.lstsq B (Aᵀ *ᵥ y)), .solve (orElse (la.inv B) (la.pinv B)))

/-- The coefficients and the factors of `_solve_ols`, for both linear solvers (l.180-191). -/
def olsFit (la : La) (o : Opts) (A : Matrix (Fin N) (Fin P) ℝ) (y : Fin N → ℝ) : (Fin P → ℝ) × Factors N P :=
  match o.solver with
  | .solve => solveNormal la A y
  | .qr => solveQr la A y

/-- `_solve_ols` (l.163-215): the coefficients, and the error and the residuals when they are asked for. -/
noncomputable def solveOls (la : La) (o : Opts) (A : Matrix (Fin N) (Fin P) ℝ) (y : Fin N → ℝ) :
    Py ((Fin P → ℝ) × Option (Ext × (Fin N → Ext))) :=
  let sf := olsFit la o A y
  if o.estimate then
    match o.kind with
    | .residuals =>
      let delta : Fin N → ℝ := fun i => y i - (A *ᵥ sf.1) i
      .ok (sf.1, some (Ext.div (mean (fun i => delta i ^ 2)) (secondMoment y), fun i => .val (delta i)))
    | _ => do
      let e ← cvError la o A y (secondMoment y) sf.1 sf.2
      .ok (sf.1, some e)
  else .ok (sf.1, none)

/-- The columns kept by a boolean pattern. -/
def cols (pat : Fin P → Bool) : List (Fin P) := (List.finRange P).filter (fun p => pat p)

/-- `sol[ind, i] = np.squeeze(sol_red)` (l.441) in a column of zeros. -/
def embed (l : List (Fin P)) (s : Fin l.length → ℝ) : Fin P → ℝ :=
  fun p => ∑ k, if l.get k = p then s k else 0

/-- The coefficients and the factor of `_select_optimal_path` with `linear_solver == "solve"` (l.430-436). -/
def solveInv (la : La) (A : Matrix (Fin N) (Fin P) ℝ) (y : Fin N → ℝ) : (Fin P → ℝ) × Factors N P :=
  let C := orElse (la.inv (Aᵀ * A)) (la.pinv (Aᵀ * A))
  (C *ᵥ (Aᵀ *ᵥ y), .solve C)

/-- One candidate of the path (l.406-441): coefficients, error and residuals. -/
noncomputable def candidate (la : La) (o : Opts) (A : Matrix (Fin N) (Fin P) ℝ) (y : Fin N → ℝ) (pat : Fin P → Bool) :
    Py ((Fin P → ℝ) × Ext × (Fin N → Ext)) := do
  let l := cols pat
  let Ar : Matrix (Fin N) (Fin l.length) ℝ := A.submatrix id l.get
  let sf := if N < l.length then solveInv la Ar y
    else match o.solver with
      | .qr => solveQr la Ar y
      | .solve => solveInv la Ar y
  let e ← cvError la o Ar y (secondMoment y) sf.1 sf.2
  .ok (embed l sf.1, e.1, e.2)

/-- The state of the loop of `_select_optimal_path`: the columns of `sol`, `err` and the columns of `delta`. -/
structure PathState (N P : Nat) where
  sol : List (Fin P → ℝ)
  err : List Ext
  delta : List (Fin N → Ext)

open Classical in
/-- One iteration (l.406-450): the candidate is written at position `i`; `stop_if_error_increase` writes infinities after it. -/
noncomputable def pathStep (la : La) (o : Opts) (A : Matrix (Fin N) (Fin P) ℝ) (y : Fin N → ℝ) (pats : List (Fin P → Bool))
    (st : PathState N P) (i : Nat) : Py (PathState N P) := do
  let c ← candidate la o A y (pats.getD i (fun _ => false))
  let sol := st.sol.set i c.1
  let err := st.err.set i c.2.1
  let delta := st.delta.set i c.2.2
  if 1 < i ∧ o.stopIfIncrease = true ∧ Ext.lt ((err.getD (i - 1) .nan).scale 2) (err.getD i .nan) then
    .ok ⟨sol, err.take (i + 1) ++ (err.drop (i + 1)).map (fun _ => .inf),
      delta.take (i + 1) ++ (delta.drop (i + 1)).map (fun _ _ => .inf)⟩
  else .ok ⟨sol, err, delta⟩

/-- The columns of the path that are compared (l.380-401): no zero column, no repetition (`np.unique` with the sorted indices
of the first occurrences), not more columns than samples. -/
def admissible (N : Nat) (path : List (Fin P → Bool)) : List (Fin P → Bool) :=
  let l := path.filter (fun pat => (List.finRange P).any pat)
  (l.reverse.dedup.reverse).filter (fun pat => (cols pat).length ≤ N)

/-- The result of `_select_optimal_path`: the coefficients and, when there is a path, `output["error"]`, `output["error_path"]`,
`output["ind"]`, `output["pattern"]`, `output["delta"]`. -/
structure PathOut (N P : Nat) where
  error : Ext
  errorPath : List Ext
  ind : Nat
  pattern : Fin P → Bool
  delta : Fin N → Ext

/-- `_select_optimal_path` (l.337-465) with the patterns `solpath != 0` of a path. After the selection all the columns are
nonzero, so the norm is zero if and only if there is none. The change of `self.linear_solver` by the loop is not kept. -/
noncomputable def selectOptimalPath (la : La) (o : Opts) (A : Matrix (Fin N) (Fin P) ℝ) (y : Fin N → ℝ)
    (path : List (Fin P → Bool)) : Py ((Fin P → ℝ) × Option (PathOut N P)) := do
  let pats := admissible N path
  if pats.isEmpty then do
    let r ← solveOls la o A y
    .ok (r.1, none)
  else do
    let st ← (List.range pats.length).foldlM (pathStep la o A y pats)
      ⟨pats.map (fun _ _ => 0), pats.map (fun _ => .val 0), pats.map (fun _ _ => .val 0)⟩
    let ind := argmin st.err
    .ok (st.sol.getD ind (fun _ => 0),
      some ⟨st.err.getD ind .nan, st.err, ind, pats.getD ind (fun _ => false), st.delta.getD ind (fun _ => .nan)⟩)

/-- `np.triu(np.full([P, P], True))` (l.328-329): column `j` selects the features `0, ..., j`. -/
def triuPath (P : Nat) : List (Fin P → Bool) :=
  (List.range P).map (fun j p => p.1 ≤ j)

/-- `_solve_basis_adaptation` (l.315-335). -/
noncomputable def solveBasisAdaptation (la : La) (o : Opts) (A : Matrix (Fin N) (Fin P) ℝ) (y : Fin N → ℝ)
    (path : Option (List (Fin P → Bool))) : Py ((Fin P → ℝ) × Option (PathOut N P)) :=
  selectOptimalPath la o A y (path.getD (triuPath P))

end Verif.LeastSquares
