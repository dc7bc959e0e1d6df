import Verif.Np
import Mathlib.Data.List.Sort

/-! # Model of `tensap/tools/multi_indices.py`

A `MultiIndices` object holds a 2-d integer array: here the number of columns and the list of rows. -/

namespace Verif.MultiIndices

/-- The attribute `array` (n rows of `dim` integers).
Models /repo/tensap/tools/multi_indices.py lines 28-56. -/
structure MI where
  dim : Nat
  rows : List (List Int)
  deriving DecidableEq, Repr

/-- The array is rectangular. -/
def MI.WF (I : MI) : Prop := ∀ r ∈ I.rows, r.length = I.dim

instance (I : MI) : Decidable I.WF := by unfold MI.WF; infer_instance

/-- `MultiIndices(np.array([row, ...]).astype(int))`: an empty list of rows becomes
`np.atleast_2d(np.array([]))`, an array of shape (1, 0).
Models the idiom of /repo/tensap/tools/multi_indices.py lines 56, 322-323, 365-366, 425-426, 554-556. -/
def ofRows (dim : Nat) (rows : List (List Int)) : MI :=
  if rows = [] then ⟨0, [[]]⟩ else ⟨dim, rows⟩

/-- Keep the first occurrence of each row that is not in `seen`. -/
def dedupAux {α : Type} [DecidableEq α] (seen : List α) : List α → List α
  | [] => []
  | x :: xs => if x ∈ seen then dedupAux seen xs else x :: dedupAux (x :: seen) xs

/-- `np.unique(array, axis=0, return_index=True)[1]` followed by selection of the sorted first
occurrence positions: first occurrences, in order.
Models /repo/tensap/tools/multi_indices.py lines 321-322. -/
def dedupFirst {α : Type} [DecidableEq α] (l : List α) : List α := dedupAux [] l

/-- `cardinal()`. Models /repo/tensap/tools/multi_indices.py lines 103-113. -/
def MI.cardinal (I : MI) : Nat := I.rows.length

/-- `sub2ind(shape)`. Models /repo/tensap/tools/multi_indices.py lines 58-74. -/
def sub2ind (I : MI) (shape : List Nat) : Py (List Nat) :=
  I.rows.mapM (ravelMultiIndexF shape)

/-- `ind2sub(shape, ind)` for an integer array `ind`.
Models /repo/tensap/tools/multi_indices.py lines 767-789. -/
def ind2sub (shape : List Nat) (ind : List Int) : Py MI := do
  let rows ← ind.mapM (unravelIndexF shape)
  pure ⟨shape.length, rows.map (List.map Int.ofNat)⟩

/-- `product_set(L, d)` where a 1-d array is given as an `MI` with one column. An empty list, or an
empty factor, makes `np.unravel_index` receive an empty (float) sequence or `range` a float, both
`TypeError`. Models /repo/tensap/tools/multi_indices.py lines 707-765 (the in-place conversion of
the caller's list `L` is not modelled). -/
def productSet (L : List MI) (d : Option Nat := none) : Py MI :=
  let d := d.getD L.length
  let L := if L.length = 1 ∧ d > 1 then (List.replicate d L).flatten else L
  let N := L.map MI.cardinal
  if L = [] ∨ N.prod = 0 then .error .typeError
  else .ok ⟨(L.map MI.dim).sum,
    (List.range N.prod).map fun r =>
      (List.zipWith (fun (M : MI) l => M.rows.getD l []) L (unravelF N r)).flatten⟩

/-- `np.arange(a, b)`. -/
def arange (a b : Int) : List Int := (List.range (b - a).toNat).map (fun k : Nat => a + (k : Int))

/-- A 1-d array as a one-column array (lines 750-751). -/
def ofColumn (l : List Int) : MI := ⟨1, l.map (fun x => [x])⟩

/-- `bounded_by(m, m0)`. Models /repo/tensap/tools/multi_indices.py lines 685-705. -/
def boundedBy (m : List Int) (m0 : Int := 0) : Py MI :=
  productSet (m.map fun x => ofColumn (arange m0 (x + 1)))

/-- `add_indices(J)`. Models /repo/tensap/tools/multi_indices.py lines 305-323. -/
def addIndices (I J : MI) : MI := ofRows I.dim (dedupFirst (I.rows ++ J.rows))

/-- `remove_indices(J)` with a `MultiIndices` argument of the same dimension.
Models /repo/tensap/tools/multi_indices.py lines 341-346: `ind` are the positions of the rows of
`self` found in `J`; `np.setdiff1d` returns the other positions in increasing order. -/
def removeIndices (I J : MI) : MI :=
  let ind := (List.range I.cardinal).filter fun i => J.rows.contains (I.rows.getD i [])
  let keep := (List.range I.cardinal).filter fun i => !ind.contains i
  ⟨I.dim, keep.map fun i => I.rows.getD i []⟩

/-- `remove_indices(J)` with row numbers. Models /repo/tensap/tools/multi_indices.py lines 343-346. -/
def removeIndicesAt (I : MI) (J : List Int) : MI :=
  let keep := (List.range I.cardinal).filter fun i => !J.contains (Int.ofNat i)
  ⟨I.dim, keep.map fun i => I.rows.getD i []⟩

/-- NumPy integer indexing of one axis of length `n`: negative numbers count from the end. -/
def npIndex (n : Nat) (k : Int) : Py Nat :=
  if 0 ≤ k ∧ k < n then .ok k.toNat
  else if -n ≤ k ∧ k < 0 then .ok (k + n).toNat
  else .error .indexError

/-- `keep_indices(k)` with a list of row numbers.
Models /repo/tensap/tools/multi_indices.py lines 391-406. -/
def keepIndices (I : MI) (k : List Int) : Py MI := do
  let pos ← k.mapM (npIndex I.cardinal)
  pure ⟨I.dim, pos.map fun i => I.rows.getD i []⟩

/-- `intersect_indices(J)`: `np.nonzero` of the J × I comparison table, J-major.
Models /repo/tensap/tools/multi_indices.py lines 368-389. -/
def intersectIndices (I J : MI) : MI × List Nat × List Nat :=
  let pairs := (List.range J.cardinal).flatMap fun j =>
    ((List.range I.cardinal).filter fun i => I.rows.getD i [] == J.rows.getD j []).map fun i => (j, i)
  (⟨I.dim, pairs.map fun p => I.rows.getD p.2 []⟩, pairs.map Prod.snd, pairs.map Prod.fst)

/-- `remove_dims(dims)`. Models /repo/tensap/tools/multi_indices.py lines 348-366. -/
def removeDims (I : MI) (dims : List Int) : MI :=
  let cols := (List.range I.dim).filter fun k => !dims.contains (Int.ofNat k)
  ofRows cols.length (dedupFirst (I.rows.map fun r => cols.map fun k => r.getD k 0))

/-- `keep_dims(dims)`. Models /repo/tensap/tools/multi_indices.py lines 408-426. -/
def keepDims (I : MI) (dims : List Int) : Py MI := do
  let cols ← dims.mapM (npIndex I.dim)
  pure (ofRows cols.length (dedupFirst (I.rows.map fun r => cols.map fun k => r.getD k 0)))

/-- The array `neighbours = array[:, None, :] ± eye` of shape (n, dim, dim), reshaped in order "F" to
(n*dim, dim), row by row; `s` is `+1` or `-1`.
Models /repo/tensap/tools/multi_indices.py lines 520-523, 543-546, 573-581. -/
def neighbours (I : MI) (s : Int) : List (List Int) :=
  let n := I.cardinal
  (List.range (n * I.dim)).map fun r => (List.range I.dim).map fun c =>
    match unravelF [n, I.dim, I.dim] (ravelF [n * I.dim, I.dim] [r, c]) with
    | [i, k, j] => (I.rows.getD i []).getD j 0 + (if k = j then s else 0)
    | _ => 0

/-- `get_maximal_indices()`. Models /repo/tensap/tools/multi_indices.py lines 506-527. -/
def getMaximalIndices (I : MI) : MI :=
  let n := I.cardinal
  let ok := (neighbours I 1).map fun v => I.rows.contains v
  let keep := (List.range n).filter fun i =>
    !((List.range I.dim).any fun k => ok.getD (ravelF [n, I.dim] [i, k]) false)
  ⟨I.dim, keep.map fun i => I.rows.getD i []⟩

/-- `get_margin()`. Models /repo/tensap/tools/multi_indices.py lines 529-556. -/
def getMargin (I : MI) : MI :=
  let nb := neighbours I 1
  let indMarg := (List.range nb.length).filter fun r => I.rows.contains (nb.getD r [])
  let keep := (List.range nb.length).filter fun r => !indMarg.contains r
  ofRows I.dim (dedupFirst (keep.map fun r => nb.getD r []))

/-- `get_reduced_margin()`. Models /repo/tensap/tools/multi_indices.py lines 558-590. -/
def getReducedMargin (I : MI) : MI :=
  let M := getMargin I
  let nb := neighbours M (-1)
  let n := M.cardinal
  let ok := nb.map fun v => I.rows.contains v || v.any (fun x => decide (x < 0))
  let keep := (List.range n).filter fun i =>
    (List.range M.dim).all fun k => ok.getD (ravelF [n, M.dim] [i, k]) false
  ⟨M.dim, keep.map fun i => M.rows.getD i []⟩

/-- The `while` loop of `is_downward_closed`, with fuel; `test` is `ind_test`.
Models /repo/tensap/tools/multi_indices.py lines 464-474. -/
def isDownwardClosedLoop (I : MI) (m : Int) : Nat → List Nat → Py Bool
  | _, [] => .ok true
  | 0, _ :: _ => .error .nonTermination
  | fuel + 1, t :: ts => do
    let p := I.rows.getD ((t :: ts).getLast (List.cons_ne_nil t ts)) []
    let Ip ← boundedBy p m
    let ok := Ip.rows.all fun v => I.rows.contains v
    if !ok then pure false
    else
      let rep := (List.range I.cardinal).filter fun i => Ip.rows.contains (I.rows.getD i [])
      isDownwardClosedLoop I m fuel ((t :: ts).filter fun i => !rep.contains i)

/-- `is_downward_closed(m)`. Models /repo/tensap/tools/multi_indices.py lines 445-474. -/
def isDownwardClosed (I : MI) (m : Int := 0) : Py Bool :=
  isDownwardClosedLoop I m I.cardinal (List.range I.cardinal)

/-- `envelope(u)` over an ordered value type with `|.|` and `max` (the code's `np.abs`, `np.max`).
Models /repo/tensap/tools/multi_indices.py lines 476-504. -/
def envelope {R : Type} [Zero R] [Max R] (abs : R → R) (I : MI) (u : List R) : Py (List R) :=
  if u.length ≠ I.cardinal then .error .assertionError
  else .ok <| (List.range I.cardinal).map fun i =>
    let sup := (List.range I.cardinal).filter fun j =>
      (List.zipWith (fun a b => decide (b ≤ a)) (I.rows.getD j []) (I.rows.getD i [])).all id
    match sup.map fun j => abs (u.getD j 0) with
    | [] => 0
    | x :: xs => xs.foldl max x

/-- `sort(columns, mode)`. The last column (sorted first) uses the default, possibly unstable,
argsort: it is the parameter `qs` (given the key of each row); the other columns use a stable sort.
`descend` flips the order after each sort.
Models /repo/tensap/tools/multi_indices.py lines 268-303, `columns` in range. -/
def sort (qs : (List Int → Int) → List (List Int) → List (List Int)) (I : MI)
    (columns : Option (List Nat)) (descend : Bool) : MI :=
  let columns := columns.getD ((List.range I.dim).reverse)
  ⟨I.dim, columns.reverse.foldl (fun rows k =>
    let key := fun r : List Int => r.getD k 0
    let sorted := if columns.getLast? = some k then qs key rows
      else rows.insertionSort (fun a b => key a ≤ key b)
    if descend then sorted.reverse else sorted) I.rows⟩

/-- The loops that grow an index set margin by margin until no margin element qualifies:
`pre` is the removal of margin rows made before positions are counted (only in
`low_order_interactions`), `stop` is the code's test on the positions `k` of qualifying rows, `P` the
defining inequality, `srt` the `argsort` used to order the added rows.
Models /repo/tensap/tools/multi_indices.py lines 638-650, 810-822, 845-860, 883-895. -/
def growLoop (pre : List Int → Bool) (stop : List Nat → Bool) (P : List Int → Bool)
    (srt : List (List Int) → List (List Int)) : Nat → MI → Py MI
  | 0, _ => .error .nonTermination
  | fuel + 1, I =>
    let M := (getMargin I).rows.filter pre
    let k := (List.range M.length).filter fun i => P (M.getD i [])
    if stop k then .ok I
    else growLoop pre stop P srt fuel (addIndices I ⟨I.dim, srt (k.map fun i => M.getD i [])⟩)

/-- No removal before counting. -/
def noPre (_ : List Int) : Bool := true

/-- The stopping test `np.all(np.logical_not(k))` of lines 644, 854, 889: true when every *position*
is zero. -/
def stopAllZero (k : List Nat) : Bool := k.all (· == 0)

/-- The stopping test `len(k) == 0` of line 816. -/
def stopEmpty (k : List Nat) : Bool := k.isEmpty

/-- `MultiIndices(np.zeros(d))`, lines 634, 638, 810, 845, 883. -/
def zeroMI (d : Nat) : MI := ⟨d, [List.replicate d 0]⟩

/-- The exponent `p` of `with_bounded_norm`. -/
inductive NormExp where
  | inf
  | fin (p : Nat)
  deriving DecidableEq

/-- `Σ i_k^p`, the p-th power of the p-norm (line 177). -/
def normPow (p : Nat) (r : List Int) : Int := (r.map (· ^ p)).sum

/-- `with_bounded_norm(d, p, m)` for `p = inf` or an integer `p ≥ 1` and an integer `m`.
For `p = inf` the call `product_set(np.arange(m+1), d)` reads `.shape[0]` of 0-d entries: `IndexError`.
The comparison `‖i‖_p ≤ m` is made in exact arithmetic as `Σ i^p ≤ m^p` (simplification: the code
takes the p-th root in floating point; real `p` are not modelled).
Models /repo/tensap/tools/multi_indices.py lines 611-650. -/
def withBoundedNorm (srt : List (List Int) → List (List Int)) (fuel : Nat) (d : Nat) (p : NormExp)
    (m : Nat) : Py MI :=
  match p with
  | .inf => .error .indexError
  | .fin 1 => .ok ((List.range m).foldl (fun I _ => addIndices I (getMargin I)) (zeroMI d))
  | .fin p => growLoop noPre stopAllZero (fun r => decide (normPow p r ≤ (m : Int) ^ p)) srt fuel (zeroMI d)

/-- `hyperbolic_cross_set(d, p)`. Models /repo/tensap/tools/multi_indices.py lines 791-822. -/
def hyperbolicCrossSet (srt : List (List Int) → List (List Int)) (fuel : Nat) (d p : Nat) : Py MI :=
  growLoop noPre stopEmpty (fun r => decide ((r.map (· + 1)).prod ≤ (p : Int) + 1)) srt fuel (zeroMI d)

/-- `low_order_interactions(d, p, m)`. Models /repo/tensap/tools/multi_indices.py lines 824-860
(the comparison `M <= MultiIndices(p)` tiles the scalar `p` to every entry). -/
def lowOrderInteractions (srt : List (List Int) → List (List Int)) (fuel : Nat) (d p m : Nat) : Py MI :=
  growLoop (fun r => r.all fun x => decide (x ≤ (p : Int))) stopAllZero
    (fun r => decide (r.countP (· ≠ 0) ≤ m)) srt fuel (zeroMI d)

/-- `weighted_hyperbolic_cross_set(d, p, w)` with integer weights (exact arithmetic).
Models /repo/tensap/tools/multi_indices.py lines 862-895. -/
def weightedHyperbolicCrossSet (srt : List (List Int) → List (List Int)) (fuel : Nat) (d p : Nat)
    (w : List Nat) : Py MI :=
  growLoop noPre stopAllZero
    (fun r => decide ((List.zipWith (fun x (e : Nat) => (x + 1) ^ e) r w).prod ≤ (p : Int) + 1))
    srt fuel (zeroMI d)

/-- `with_bounded_weighted_norm(d, p, m, w)` for integer `p ≥ 1` and positive integer weights, in
exact arithmetic; `srt` is the argsort by norm.
Models /repo/tensap/tools/multi_indices.py lines 652-683. -/
def withBoundedWeightedNorm (srt : List (List Int) → List (List Int)) (d p m : Nat) (w : List Nat) :
    Py MI := do
  if d ≠ w.length then .error .assertionError
  let ind ← productSet (w.map fun x => ofColumn (arange 0 ((m / x : Nat) + 1)))
  let k := (List.range ind.cardinal).filter fun i =>
    decide (((List.zipWith (fun x (e : Nat) => (x * (e : Int)) ^ p) (ind.rows.getD i []) w).sum) ≤ (m : Int) ^ p)
  pure ⟨ind.dim, srt (k.map fun i => ind.rows.getD i [])⟩

end Verif.MultiIndices
