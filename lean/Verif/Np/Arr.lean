import Verif.Np
import Mathlib.Algebra.BigOperators.Group.Finset.Basic
import Mathlib.Algebra.BigOperators.Ring.Finset
import Mathlib.Algebra.BigOperators.Intervals
import Mathlib.Data.List.GetD
import Mathlib.Data.List.Nodup

/-!
# Trusted semantics of the NumPy primitives used by tensap: arrays

An array is a shape and an entry function. Only the entries inside the shape are observable: two arrays
are the same (`≈`) when the shapes are equal and the entries inside the shape are equal. Nothing here is
tensap code: it is the specification of the NumPy functions that tensap calls, by their index formulas.
-/

namespace Verif

open Finset

/-- A NumPy array. -/
structure Arr (R : Type) where
  shape : List Nat
  get : List Nat → R

/-- Equality of the observable content. -/
def Arr.Same {R : Type} (a b : Arr R) : Prop :=
  a.shape = b.shape ∧ ∀ idx, InBox a.shape idx → a.get idx = b.get idx

infix:50 " ≃ₐ " => Arr.Same

namespace Arr

variable {R : Type}

theorem Same.refl (a : Arr R) : a ≃ₐ a := ⟨rfl, fun _ _ => rfl⟩

theorem Same.symm {a b : Arr R} (h : a ≃ₐ b) : b ≃ₐ a :=
  ⟨h.1.symm, fun idx hi => (h.2 idx (h.1 ▸ hi)).symm⟩

theorem Same.trans {a b c : Arr R} (h : a ≃ₐ b) (h' : b ≃ₐ c) : a ≃ₐ c :=
  ⟨h.1.trans h'.1, fun idx hi => (h.2 idx hi).trans (h'.2 idx (h.1 ▸ hi))⟩

/-- `np.ndim(a)`. -/
def order (a : Arr R) : Nat := a.shape.length

/-- `v[perm]` for lists of naturals. -/
def applyPerm (perm v : List Nat) : List Nat := perm.map (fun k => v.getD k 0)

/-- The inverse of a permutation of `range d`. -/
def invPerm (perm : List Nat) : List Nat := (List.range perm.length).map (fun m => perm.idxOf m)

/-- `np.transpose(a, perm)`: axis `k` of the result is axis `perm[k]` of `a`. -/
def transpose (a : Arr R) (perm : List Nat) : Arr R where
  shape := applyPerm perm a.shape
  get idx := a.get (applyPerm (invPerm perm) idx)

/-- `np.reshape(a, shape, order="F")` for a shape of the same size. -/
def reshapeF (a : Arr R) (shape : List Nat) : Arr R where
  shape := shape
  get idx := a.get (unravelF a.shape (ravelF shape idx))

/-- `np.reshape(a, shape)` (order "C") for a shape of the same size. -/
def reshapeC (a : Arr R) (shape : List Nat) : Arr R where
  shape := shape
  get idx := a.get (unravelC a.shape (ravelC shape idx))

/-- `np.take(a, ind, axis)` for in-range indices. -/
def take (a : Arr R) (ind : List Nat) (axis : Nat) : Arr R where
  shape := a.shape.set axis ind.length
  get idx := a.get (idx.set axis (ind.getD (idx.getD axis 0) 0))

/-- `np.concatenate([a, b], axis)`. -/
def concat (a b : Arr R) (axis : Nat) : Arr R where
  shape := a.shape.set axis (a.shape.getD axis 0 + b.shape.getD axis 0)
  get idx := if idx.getD axis 0 < a.shape.getD axis 0 then a.get idx
    else b.get (idx.set axis (idx.getD axis 0 - a.shape.getD axis 0))

/-- `np.pad(a, padding)` with `lo[k]` zeros before and `hi[k]` zeros after along axis `k`. -/
def pad [Zero R] (a : Arr R) (lo hi : List Nat) : Arr R where
  shape := List.zipWith (· + ·) (List.zipWith (· + ·) lo a.shape) hi
  get idx := if InBox a.shape (List.zipWith (· - ·) idx lo) ∧ List.Forall₂ (· ≤ ·) lo idx
    then a.get (List.zipWith (· - ·) idx lo) else 0

/-- Elementwise operations of arrays of equal shapes. -/
def map (f : R → R) (a : Arr R) : Arr R := ⟨a.shape, fun idx => f (a.get idx)⟩
def zipWith (f : R → R → R) (a b : Arr R) : Arr R := ⟨a.shape, fun idx => f (a.get idx) (b.get idx)⟩

/-- The nested sum over all the index tuples of a box. -/
def _root_.Verif.sumBox [AddCommMonoid R] : List Nat → (List Nat → R) → R
  | [], f => f []
  | n :: ns, f => ∑ i ∈ range n, sumBox ns (fun is => f (i :: is))

/-- `np.sum(a)`. -/
def sumAll [AddCommMonoid R] (a : Arr R) : R := sumBox a.shape a.get

/-- The index tuple with `s[k]` at position `ax[k]` and the entries of `rest`, in order, elsewhere.
(`pos` is the position of the first entry, `n` the number of entries.) -/
def mergeIdx (ax s : List Nat) : Nat → Nat → List Nat → List Nat
  | _, 0, _ => []
  | pos, n + 1, rest =>
    if pos ∈ ax then s.getD (ax.idxOf pos) 0 :: mergeIdx ax s (pos + 1) n rest
    else rest.headD 0 :: mergeIdx ax s (pos + 1) n rest.tail

/-- The entries of a list at the positions not in `ax`. -/
def dropAxes {α : Type} (ax : List Nat) (l : List α) : List α :=
  (l.zipIdx.filter (fun p => !ax.contains p.2)).map Prod.fst

/-- `np.tensordot(a, b, [ax1, ax2])`: the axes of `a` not in `ax1`, then those of `b` not in `ax2`. -/
def tensordot [CommSemiring R] (a b : Arr R) (ax1 ax2 : List Nat) : Arr R where
  shape := dropAxes ax1 a.shape ++ dropAxes ax2 b.shape
  get idx :=
    let k := (dropAxes ax1 a.shape).length
    sumBox (applyPerm ax1 a.shape) (fun s =>
      a.get (mergeIdx ax1 s 0 a.order (idx.take k)) * b.get (mergeIdx ax2 s 0 b.order (idx.drop k)))

/-- `np.squeeze(a, axes)`, for axes of size one: they are removed. -/
def squeeze (a : Arr R) (axes : List Nat) : Arr R where
  shape := dropAxes axes a.shape
  get idx := a.get (mergeIdx axes [] 0 a.order idx)

/-- Distinct elements of a list, in order of first occurrence. -/
def distinct (l : List Nat) : List Nat := l.foldl (fun acc x => if x ∈ acc then acc else acc ++ [x]) []

/-- `np.einsum(a, l1, b, l2, out)`: labelled contraction; labels not in `out` are summed. -/
def einsum [CommSemiring R] (a : Arr R) (l1 : List Nat) (b : Arr R) (l2 : List Nat) (out : List Nat) : Arr R :=
  let size := fun l => if l ∈ l1 then a.shape.getD (l1.idxOf l) 0 else b.shape.getD (l2.idxOf l) 0
  let summed := (distinct (l1 ++ l2)).filter (fun l => !out.contains l)
  { shape := out.map size
    get := fun idx => sumBox (summed.map size) (fun s =>
      let env := fun l => if l ∈ out then idx.getD (out.idxOf l) 0 else s.getD (summed.idxOf l) 0
      a.get (l1.map env) * b.get (l2.map env)) }

end Arr
end Verif
