import Verif.Lemmas.QRExists
import Verif.Props.TreeOrth
import Verif.Props.TreeWitness

/-!
# Cases that meet the hypotheses of the theorems on `orth` and `norm`
-/

namespace Verif.TreeBased

open Verif.Arr Verif.DimTree

/-- The tensor `exT` with real entries. -/
def exR : TBT ℝ := ⟨exT.tree, fun i => ⟨(exT.tensors i).shape, fun idx => (((exT.tensors i).get idx : ℤ) : ℝ)⟩⟩

theorem exR_wf : WF exR := by
  obtain ⟨r, _, hr⟩ := root_ok exT_wf.valid
  have h := exT_wf.shaped hr
  exact (show Shaped exR exT.tree exT.active exT.lastDim exT.leafSize (rankShape exT r) from
    ⟨rfl, h.rho, h.nu, h.rootPos, h.rootLen, h.leaf, h.off, h.internal, h.node⟩).wf exT_wf.valid exT_wf.order

/-- The hypotheses of `orth_full` and `normSq_full` are met. -/
example : ∃ qr : Arr ℝ → Arr ℝ × Arr ℝ, FullTensor.QROk qr ∧ WF exR := by
  obtain ⟨qr, h⟩ := FullTensor.exists_qr
  exact ⟨qr, h, exR_wf⟩

end Verif.TreeBased
