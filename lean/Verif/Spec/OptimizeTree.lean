import Verif.Model.OptimizeTree
import Verif.Spec.Tree
import Mathlib.Analysis.SpecialFunctions.Pow.Real

/-!
# Specification of the optimization of the dimension tree (C212-C214)
-/

namespace Verif.TreeBased

open Verif.Arr Verif.DimTree

/-- The Frobenius norm of the entries `f` on the box of shape `s`. -/
noncomputable def frob (s : List Nat) (f : List Nat → ℝ) : ℝ := Real.sqrt (sumBox s (fun i => f i ^ 2))

/-- What is expected of the exchange of two nodes of a tensor: with tolerance `eps`, the tensor obtained has the same shape, a relative distance
at most `eps` to the given one, and a norm that is not larger. -/
def PermuteOk (P : Permute ℝ) : Prop :=
  ∀ t p eps t' (a : Arr ℝ), 0 ≤ eps → full t = .ok a → P t p eps = .ok t' →
    ∃ b, full t' = .ok b ∧ b.shape = a.shape ∧ frob a.shape (fun i => b.get i - a.get i) ≤ eps * frob a.shape a.get ∧
      frob a.shape b.get ≤ frob a.shape a.get

/-- The class of tensors without inactive internal node (the constructor builds no other). -/
def InternalActive {R : Type} (t : TBT R) : Prop := ∀ i, IsNode t.tree i → t.tree.isLeaf i = false → t.active i = true

end Verif.TreeBased

namespace Verif.DimTree

/-- The nodes `alpha` and `beta` can be exchanged, and the exchange changes the tree: neither is an ancestor of the other, and they do not have
the same parent. -/
def Swappable (T : DTree) (alpha beta : Nat) : Prop :=
  ¬ AncSelf T alpha beta ∧ ¬ AncSelf T beta alpha ∧ ¬ ∃ p, Edge T p alpha ∧ Edge T p beta

/-- `gamma` is the deepest common ancestor of `alpha` and `beta`: every common ancestor is an ancestor of it. -/
def Deepest (T : DTree) (alpha beta gamma : Nat) : Prop :=
  Anc T gamma alpha ∧ Anc T gamma beta ∧ ∀ x, Anc T x alpha → Anc T x beta → AncSelf T x gamma

/-- `p` is on the path from `gamma` to `alpha` or `beta`, excluding these two. -/
def OnPaths (T : DTree) (alpha beta gamma p : Nat) : Prop := AncSelf T gamma p ∧ (Anc T p alpha ∨ Anc T p beta)

/-- `c` hangs from the paths from `gamma` to `alpha` and `beta`: it is not on them, and its parent is. -/
def Hangs (T : DTree) (alpha beta gamma c : Nat) : Prop :=
  (∃ p, Edge T p c ∧ OnPaths T alpha beta gamma p) ∧ ¬ OnPaths T alpha beta gamma c

end Verif.DimTree
