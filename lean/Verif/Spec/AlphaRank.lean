import Verif.Spec.Tensor
import Verif.Np
import Mathlib.Algebra.BigOperators.Group.Finset.Basic
import Mathlib.Data.Real.Basic

/-!
# Specification of the rank of a tensor with respect to some of its dimensions
-/

namespace Verif

open Arr Finset

/-- The tensor `a`, of shape `s ++ out`, is a sum of `n` products of a function of the subscripts of the dimensions in `D` and of a function of the
other subscripts. -/
def IsSumOfProducts (s out : List Nat) (a : List Nat → ℝ) (D : List Nat) (n : Nat) : Prop :=
  ∃ (A : Nat → List Nat → ℝ) (B : Nat → List Nat → List Nat → ℝ), ∀ p e, InBox s p → InBox out e →
    a (p ++ e) = ∑ l ∈ range n, A l (entriesAt D p) * B l (entriesOff D p) e

/-- The rank of a tensor with respect to the dimensions in `D`: the least number of products. -/
def IsAlphaRank (s out : List Nat) (a : List Nat → ℝ) (D : List Nat) (k : Nat) : Prop :=
  IsSumOfProducts s out a D k ∧ ∀ n, IsSumOfProducts s out a D n → k ≤ n

end Verif
