import Verif.Model.PiecewisePolynomials

/-!
# Specification: meshes of an interval
-/

namespace Verif.Piecewise

noncomputable section

/-- A partition of an interval in at least one element, with one degree for each of them. -/
structure PPB.Mesh (b : PPB) : Prop where
  increasing : b.points.Pairwise (· < ·)
  len : b.points.length = b.p.length + 1
  nonempty : b.p ≠ []

/-- The end points of element number `i`. -/
def PPB.lo (b : PPB) (i : ℕ) : ℝ := b.points.getD i 0

/-- The end points of element number `i`. -/
def PPB.hi (b : PPB) (i : ℕ) : ℝ := b.points.getD (i + 1) 0

/-- The degree on element number `i`. -/
def PPB.deg (b : PPB) (i : ℕ) : ℕ := b.p.getD i 0

/-- The position of the function number `j` of element `i`: the functions are listed element after element, `deg + 1` for
each. -/
def PPB.index (b : PPB) (i j : ℕ) : ℕ := ∑ l ∈ Finset.range i, (b.deg l + 1) + j

/-- The number of functions. -/
def PPB.count (b : PPB) : ℕ := ∑ l ∈ Finset.range b.p.length, (b.deg l + 1)

/-- `x` is in element number `i`: elements contain their left end, the last one also its right end. -/
def PPB.Holds (b : PPB) (i : ℕ) (x : ℝ) : Prop := b.lo i ≤ x ∧ (x < b.hi i ∨ i + 1 = b.p.length ∧ x = b.hi i)

/-- The combination of the values `row` with the coefficients `c`. -/
def comb (c row : List ℝ) : ℝ := ∑ k ∈ Finset.range c.length, c.getD k 0 * row.getD k 0

end

end Verif.Piecewise
