import Verif.Np
import Mathlib.Algebra.Order.Field.Basic

/-!
# Model of `tensap/approximation/tools/model_selection.py`

Complexities and risks are elements of an ordered field (no rounding, no infinite or undefined data); both lists are
supposed to have the same length and `pen_shape` to act entry by entry. A `nan` of `lambda_current` is `none`.
Not modelled: the `complexity*` methods (l.198-301).
-/

namespace Verif.ModelSelection

variable {K : Type} [Field K] [LinearOrder K] [IsStrictOrderedRing K]

/-- `ModelSelection` (model_selection.py l.26-55): `data["complexity"]`, `data["empirical_risk"]`, `pen_shape`,
`gap_factor`. -/
structure MS (K : Type) where
  comp : List K
  risk : List K
  penShape : K → K
  gapFactor : K

/-- `np.argmin`: the first index of the least entry; `ValueError` on an empty array. -/
def argmin (l : List K) : Py Nat :=
  if l = [] then .error .valueError else .ok (l.findIdx (fun x => l.all (fun y => decide (x ≤ y))))

/-- `np.argmax`: the first index of the greatest entry; `ValueError` on an empty array. -/
def argmax (l : List K) : Py Nat :=
  if l = [] then .error .valueError else .ok (l.findIdx (fun x => l.all (fun y => decide (y ≤ x))))

/-- One entry of `m_lambda(lbda)` (model_selection.py l.73-77). -/
def mLambda1 (s : MS K) (l0 : K) : Py Nat :=
  argmin (List.zipWith (fun r c => r + l0 * s.penShape c) s.risk s.comp)

/-- `m_lambda(lbda)` (model_selection.py l.57-77). -/
def mLambda (s : MS K) (lbda : List K) : Py (List Nat) := lbda.mapM (mLambda1 s)

/-- `lambda_current` after both masks (model_selection.py l.106-111). A zero denominator gives `inf`, `-inf` or `nan`,
each of which becomes `nan`. -/
def lambdaCurrent (s : MS K) (ind : Nat) (lambda0 : K) : List (Option K) :=
  List.zipWith (fun r c =>
    let den := s.penShape (s.comp.getD ind 0) - s.penShape c
    if den = 0 then none
    else if (r - s.risk.getD ind 0) / den ≤ lambda0 then none
    else some ((r - s.risk.getD ind 0) / den)) s.risk s.comp

/-- The entry is a number and no other number of `l` is smaller. -/
def isNanMin (l : List (Option K)) : Option K → Bool
  | none => false
  | some x => l.all (fun o => match o with
    | none => true
    | some y => decide (x ≤ y))

/-- `np.nanargmin`, for an array with a number in it. -/
def nanargmin (l : List (Option K)) : Nat := l.findIdx (isNanMin l)

/-- The loop `while ok` (model_selection.py l.104-119) from `lambda_0`, `ind`: the values appended to `path` and
`m_path`. -/
def walk (s : MS K) : Nat → K → Nat → Py (List (K × Nat))
  | 0, _, _ => .error .nonTermination
  | fuel + 1, lambda0, ind =>
    let cur := lambdaCurrent s ind lambda0
    match cur.getD (nanargmin cur) none with
    | none => .ok []
    | some l1 => (walk s fuel l1 (nanargmin cur)).map (fun L => (l1, nanargmin cur) :: L)

/-- What `lambda_path()` returns: two arrays, or two zero-dimensional zeros. -/
inductive PathResult (K : Type) where
  | zero
  | path (lambdas : List K) (models : List Nat)
  deriving DecidableEq

/-- `lambda_path()` (model_selection.py l.79-131). -/
def lambdaPath (s : MS K) (fuel : Nat) : Py (PathResult K) := do
  let ind ← argmin s.risk
  let L ← walk s fuel 0 ind
  match L with
  | [] => .ok .zero
  | p :: L => .ok (.path ([p.1 / 2] ++ (p :: L).map Prod.fst ++ [((p :: L).getLast (by simp)).1 * 2])
      ([ind] ++ (p :: L).map Prod.snd ++ [((p :: L).getLast (by simp)).2]))

/-- `slope_heuristic()` (model_selection.py l.133-181), the values `lambda_hat` and `m_hat`. -/
def slopeHeuristic (s : MS K) (fuel : Nat) : Py (K × Nat) := do
  if (List.zipWith (fun a b => b - a) s.comp s.comp.tail).all (fun d => decide (d = 0)) then .ok (0, 0)
  else
    let p ← lambdaPath s fuel
    match p with
    | .zero => .error .indexError
    | .path p _ =>
      let lMid := List.zipWith (fun a b => (a + b) / 2) p.dropLast p.tail
      let m1 ← mLambda s lMid.dropLast
      let m2 ← mLambda s lMid.tail
      let gaps := List.zipWith (fun a b => s.comp.getD a 0 - s.comp.getD b 0) m1 m2
      let ind ← argmax gaps
      let lambdaHat := s.gapFactor * p.getD (ind + 1) 0
      let mHat ← mLambda1 s lambdaHat
      .ok (lambdaHat, mHat)

end Verif.ModelSelection
