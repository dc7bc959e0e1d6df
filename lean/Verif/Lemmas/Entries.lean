import Verif.Props.SparseContract

/-!
# Contractions of a full tensor given by a list of entries
-/

namespace Verif

open Verif.Arr Finset Verif.Sparse

variable {R : Type}

theorem entriesAt_range (v : List Nat) : entriesAt (List.range v.length) v = v := by
  unfold entriesAt
  apply ext_getD (by simp)
  intro k hk
  rw [List.getD_eq_getElem _ _ hk, List.getElem_map, List.getElem_range]

theorem subst_range {idx s : List Nat} (h : s.length = idx.length) : subst idx (List.range idx.length) s = s := by
  apply ext_getD (by rw [FullTensor.subst_length, h])
  intro k hk
  rw [FullTensor.subst_length] at hk
  rw [FullTensor.getD_subst _ _ _ _ hk, if_pos (List.mem_range.2 hk)]
  congr 1
  have : k < (List.range idx.length).length := by simpa using hk
  conv_lhs => rw [← List.getElem_range this]
  exact List.nodup_range.idxOf_getElem k this

/-- The default dimensions of `tensor_matrix_product`: all of them, in order. -/
theorem tensorMatrixProduct_all [CommSemiring R] (x : Arr R) (ms : List (Arr R))
    (hfit : List.Forall₂ (fun (M : Arr R) n => ∃ m, M.shape = [m, n]) ms x.shape) :
    ∃ y, FullTensor.tensorMatrixProduct x ms = .ok y ∧
      y.shape = ms.map (fun M => M.shape.getD 0 0) ∧
      ∀ idx, InBox y.shape idx →
        y.get idx = sumBox x.shape (fun s => x.get s *
          (List.zipWith (fun (M : Arr R) (p : Nat × Nat) => M.get [p.1, p.2]) ms (idx.zip s)).prod) := by
  have hlen : ms.length = x.shape.length := hfit.length_eq
  obtain ⟨y, h1, h2, h3⟩ := FullTensor.tensorMatrixProduct_spec x ms (List.range x.order) List.nodup_range (by
    rw [List.forall₂_iff_get] at hfit ⊢
    refine ⟨by simpa [Arr.order] using hlen, fun i ha hb => ?_⟩
    obtain ⟨m, hm⟩ := hfit.2 i ha (by rw [← hlen]; exact ha)
    refine ⟨by simpa using hb, m, ?_⟩
    simp only [List.get_eq_getElem, List.getElem_range] at *
    rw [hm, List.getD_eq_getElem]
    )
  have hsh : y.shape = ms.map (fun M => M.shape.getD 0 0) := by
    rw [h2]; exact subst_range (by simp only [List.length_map]; exact hlen)
  refine ⟨y, h1, hsh, ?_⟩
  intro idx hi
  rw [h3 idx hi]
  have hil : idx.length = x.order := by rw [hi.length_eq, hsh, List.length_map]; exact hlen
  have e1 : entriesAt (List.range x.order) x.shape = x.shape := entriesAt_range _
  have e2 : entriesAt (List.range x.order) idx = idx := by rw [← hil]; exact entriesAt_range _
  rw [e1, e2]
  apply sumBox_congr
  intro s hs
  rw [← hil, subst_range (by rw [hs.length_eq, hil]; rfl)]

end Verif
