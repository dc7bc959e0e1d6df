import Verif.Props.MultiIndicesSets

/-!
# Selection of dimensions of multi-indices (C63)
-/

namespace Verif.MultiIndices

/-- The entries of a row in the dimensions `cols`. -/
def proj (cols : List Nat) (r : List Int) : List Int := cols.map (fun k => r.getD k 0)

theorem mapM_npIndex {dims : List Nat} {n : Nat} (h : ∀ k ∈ dims, k < n) : (dims.map Int.ofNat).mapM (npIndex n) = .ok dims := by
  rw [mapM_ok_iff, List.forall₂_map_left_iff, List.forall₂_same]
  intro k hk
  unfold npIndex
  have := h k hk
  rw [if_pos ⟨Int.natCast_nonneg _, by simpa using this⟩]
  simp

theorem keepDims_eq (I : MI) (hne : I.rows ≠ []) (dims : List Nat) (h : ∀ k ∈ dims, k < I.dim) :
    keepDims I (dims.map Int.ofNat) = .ok ⟨dims.length, dedupFirst (I.rows.map (proj dims))⟩ := by
  unfold keepDims
  rw [mapM_npIndex h]
  simp only [bind, Except.bind, pure, Except.pure]
  unfold ofRows
  rw [if_neg]
  · rfl
  · intro he
    obtain ⟨r, hr⟩ := List.exists_mem_of_ne_nil _ hne
    have : proj dims r ∈ dedupFirst (I.rows.map (proj dims)) := by
      rw [mem_dedupFirst]; exact List.mem_map_of_mem hr
    have h2 : dedupFirst (I.rows.map (proj dims)) = [] := he
    rw [h2] at this; simp at this

/-- C63. `keep_dims(dims)` returns the projections of the multi-indices on the dimensions `dims`, in this order of the
dimensions, each once, in the order of the first occurrences. -/
theorem keepDims_spec (I : MI) (hne : I.rows ≠ []) (dims : List Nat) (h : ∀ k ∈ dims, k < I.dim) :
    ∃ J, keepDims I (dims.map Int.ofNat) = .ok J ∧ J.dim = dims.length ∧ J.WF ∧ J.rows.Nodup ∧
      (∀ v, v ∈ J.rows ↔ ∃ r ∈ I.rows, v = dims.map (fun k => r.getD k 0)) ∧
      J.rows.Sublist (I.rows.map (fun r => dims.map (fun k => r.getD k 0))) := by
  refine ⟨_, keepDims_eq I hne dims h, rfl, ?_, nodup_dedupFirst _, ?_, sublist_dedupFirst _⟩
  · intro r hr
    rw [mem_dedupFirst] at hr
    obtain ⟨s, _, rfl⟩ := List.mem_map.1 hr
    simp [proj]
  · intro v
    rw [mem_dedupFirst, List.mem_map]
    constructor
    · rintro ⟨r, hr, rfl⟩; exact ⟨r, hr, rfl⟩
    · rintro ⟨r, hr, rfl⟩; exact ⟨r, hr, rfl⟩

/-- A dimension out of range is refused. -/
theorem keepDims_refused (I : MI) (dims : List Int) (k : Int) (hk : k ∈ dims) (h : k < -I.dim ∨ (I.dim : Int) ≤ k) :
    keepDims I dims = .error .indexError := by
  have he : npIndex I.dim k = .error .indexError := by
    unfold npIndex
    rw [if_neg (by omega), if_neg (by omega)]
  have : ∀ l : List Int, k ∈ l → l.mapM (npIndex I.dim) = .error .indexError := by
    intro l
    induction l with
    | nil => simp
    | cons a l ih =>
      intro hm
      rw [List.mapM_cons]
      rcases List.mem_cons.1 hm with rfl | hm
      · rw [he]; rfl
      · rw [ih hm]
        have : ∀ a, npIndex I.dim a = .error .indexError ∨ ∃ j, npIndex I.dim a = .ok j := by
          intro a
          unfold npIndex
          split
          · exact .inr ⟨_, rfl⟩
          · split
            · exact .inr ⟨_, rfl⟩
            · exact .inl rfl
        rcases this a with h | ⟨j, h⟩ <;> rw [h] <;> rfl
  unfold keepDims
  rw [this dims hk]; rfl

/-- `remove_dims(dims)` is `keep_dims` of the other dimensions, in increasing order; dimensions out of range are
ignored. -/
theorem removeDims_eq (I : MI) (dims : List Int) :
    keepDims I (((List.range I.dim).filter (fun k => !dims.contains (Int.ofNat k))).map Int.ofNat) = .ok (removeDims I dims) := by
  unfold keepDims
  rw [mapM_npIndex (by intro k hk; exact List.mem_range.1 (List.mem_filter.1 hk).1)]
  rfl

/-- Keeping dimensions of a downward closed set gives a downward closed set. -/
theorem keepDims_downClosed (I : MI) (hI : I.WF) (hne : I.rows ≠ []) (hnn : NonNeg I.rows) (hdc : DownClosed 0 I.rows) (dims : List Nat)
    (hnd : dims.Nodup) (h : ∀ k ∈ dims, k < I.dim) :
    ∃ J, keepDims I (dims.map Int.ofNat) = .ok J ∧ DownClosed 0 J.rows := by
  obtain ⟨J, hJ, _, _, _, hm, _⟩ := keepDims_spec I hne dims h
  refine ⟨J, hJ, ?_⟩
  intro v hv u huv hu
  obtain ⟨r, hr, rfl⟩ := (hm v).1 hv
  have hl : u.length = dims.length := by rw [huv.length_eq]; simp
  have hrl := hI r hr
  have hle : ∀ i (hi : i < dims.length), u.getD i 0 ≤ r.getD dims[i] 0 ∧ 0 ≤ u.getD i 0 := by
    intro i hi
    rw [List.getD_eq_getElem _ _ (by omega)]
    refine ⟨?_, hu _ (List.getElem_mem _)⟩
    have := (List.forall₂_iff_get.1 huv).2 i (by omega) (by simpa using hi)
    simpa using this
  rw [hm]
  refine ⟨(List.range I.dim).map (fun k => if k ∈ dims then u.getD (dims.idxOf k) 0 else r.getD k 0), hdc r hr _ ?_ ?_, ?_⟩
  · unfold RowLE
    rw [List.forall₂_iff_get]
    refine ⟨by simp [hrl], fun i h1 h2 => ?_⟩
    simp only [List.get_eq_getElem, List.getElem_map, List.getElem_range]
    split
    · rename_i hmem
      have hlt := List.idxOf_lt_length_iff.2 hmem
      have := (hle _ hlt).1
      rw [List.getElem_idxOf hlt] at this
      rwa [List.getD_eq_getElem _ _ h2] at this
    · rw [List.getD_eq_getElem _ _ h2]
  · intro x hx
    obtain ⟨k, hk, rfl⟩ := List.mem_map.1 hx
    split
    · rename_i hmem
      exact (hle _ (List.idxOf_lt_length_iff.2 hmem)).2
    · have : k < r.length := by rw [hrl]; exact List.mem_range.1 hk
      rw [List.getD_eq_getElem _ _ this]
      exact hnn r hr _ (List.getElem_mem _)
  · apply List.ext_getElem (by simp [hl])
    intro i h1 h2
    have hi : i < dims.length := by omega
    have hd := h _ (List.getElem_mem hi)
    rw [List.getElem_map, List.getD_eq_getElem _ _ (by simpa using hd), List.getElem_map, List.getElem_range,
      if_pos (List.getElem_mem hi), hnd.idxOf_getElem i hi, List.getD_eq_getElem _ _ h1]

example : keepDims ⟨3, [[0, 1, 2], [0, 5, 2], [1, 0, 0]]⟩ [2, 0] = .ok ⟨2, [[2, 0], [0, 1]]⟩ := by decide
example : removeDims ⟨3, [[0, 1, 2], [0, 5, 2], [1, 0, 0]]⟩ [1] = ⟨2, [[0, 2], [1, 0]]⟩ := by decide

end Verif.MultiIndices
