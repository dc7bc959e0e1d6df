import Verif.Model.DimensionTree
import Mathlib.Logic.Relation

/-!
# Specification vocabulary for dimension trees

Ordinary graph notions, defined from the adjacency matrix alone (no use of the attributes that the
constructor computes).
-/

namespace Verif.DimTree

/-- Node numbers are `1..n`. -/
def IsNode (T : DTree) (i : Nat) : Prop := 1 ≤ i ∧ i ≤ T.n

/-- There is an edge from `i` to `j` (`j` is a son of `i`). -/
def Edge (T : DTree) (i j : Nat) : Prop := IsNode T i ∧ IsNode T j ∧ T.adj (i - 1) (j - 1) = true

/-- `i` is an ancestor of `j`, or `j` itself. -/
def AncSelf (T : DTree) : Nat → Nat → Prop := Relation.ReflTransGen (Edge T)

/-- `i` is a proper ancestor of `j`. -/
def Anc (T : DTree) : Nat → Nat → Prop := Relation.TransGen (Edge T)

/-- `r` is a root: a node without parent. -/
def IsRoot (T : DTree) (r : Nat) : Prop := IsNode T r ∧ ∀ i, ¬ Edge T i r

/-- `HasLevel T j k`: there is a path of `k` edges from a root to `j`. -/
inductive HasLevel (T : DTree) : Nat → Nat → Prop
  | root {r} : IsRoot T r → HasLevel T r 0
  | child {i j k} : HasLevel T i k → Edge T i j → HasLevel T j (k + 1)

/-- A rooted tree whose leaves are in bijection with the dimensions. -/
structure Valid (T : DTree) : Prop where
  unique_parent : ∀ i i' j, Edge T i j → Edge T i' j → i = i'
  rooted : ∃ r, IsRoot T r ∧ ∀ j, IsNode T j → AncSelf T r j
  nodup : T.dim2ind.Nodup
  leaves : ∀ x, x ∈ T.dim2ind ↔ IsNode T x ∧ ∀ j, ¬ Edge T x j

end Verif.DimTree
