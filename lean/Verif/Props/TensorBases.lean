import Verif.Props.BasisArray
import Verif.Props.MultiIndicesDims
import Mathlib.Data.List.Dedup

/-!
# Tensor product bases, families of bases (C48, C59, C60, C61, C62)
-/

namespace Verif.Bases

open Verif.MultiIndices Finset Verif.Arr Verif.Grids

variable {K : Type}

theorem getD_map_lt {α β : Type} (l : List α) (f : α → β) {i : Nat} (h : i < l.length) (d : β) : (l.map f).getD i d = f l[i] := by
  rw [List.getD_eq_getElem _ _ (by simpa using h), List.getElem_map]

theorem pick_aux (sizes idx pre : List Nat) (h : InBox sizes idx) :
    (sizes.zipIdx pre.length).mapM (pickOne ((pre ++ idx).map Int.ofNat)) = .ok idx := by
  induction sizes generalizing idx pre with
  | nil =>
    rw [inBox_nil_left] at h; subst h
    simp [pure, Except.pure]
  | cons g sizes ih =>
    cases idx with
    | nil => simp at h
    | cons j idx =>
      simp only [inBox_cons_cons] at h
      have hj : ((pre ++ j :: idx).map Int.ofNat)[pre.length]? = some (Int.ofNat j) := by simp
      rw [List.zipIdx_cons, List.mapM_cons]
      have e := ih idx (pre ++ [j]) h.2
      simp only [List.length_append, List.length_singleton, List.append_assoc, List.singleton_append] at e
      rw [e]
      simp only [pickOne, hj, npIndex_ofNat h.1, bind, Except.bind, pure, Except.pure]

theorem pick_ok {sizes idx : List Nat} (h : InBox sizes idx) : pick sizes (idx.map Int.ofNat) = .ok idx := by
  have := pick_aux sizes idx [] h
  simpa [pick] using this

theorem picks_ok {sizes : List Nat} {ind : List (List Nat)} (h : ∀ i ∈ ind, InBox sizes i) :
    (ind.map (fun r => r.map Int.ofNat)).mapM (pick sizes) = .ok ind := by
  rw [mapM_ok_iff, List.forall₂_map_left_iff, List.forall₂_same]
  exact fun i hi => pick_ok (h i hi)

/-- The multi-indices of an array of naturals. -/
def ofNats (d : Nat) (ind : List (List Nat)) : MI := ⟨d, ind.map (fun r => r.map Int.ofNat)⟩

/-- C48. Column `k` of the evaluation of a sparse tensor product basis is the product of the 1-d basis functions
designated by the multi-index `k`. -/
theorem evalSparse_spec [CommSemiring K] (Hx : List (Arr K)) (h0 : Hx ≠ []) (n : Nat) (hn : ∀ H ∈ Hx, ∃ c, H.shape = [n, c])
    (d : Nat) (ind : List (List Nat)) (h : ∀ i ∈ ind, InBox (Hx.map (fun H => H.shape.getD 1 0)) i) :
    ∃ y, evalSparse Hx (ofNats d ind) = .ok y ∧ y.shape = [n, ind.length] ∧
      ∀ p k, y.get [p, k] = (List.zipWith (fun (H : Arr K) j => H.get [p, j]) Hx (ind.getD k [])).prod := by
  obtain ⟨H0, Hs, rfl⟩ := List.exists_cons_of_ne_nil h0
  obtain ⟨c, hc⟩ := hn H0 (by simp)
  unfold evalSparse
  simp only [ofNats, picks_ok h]
  exact ⟨_, rfl, by simp [hc], fun p k => rfl⟩

theorem ind_full (sizes : List Nat) (h0 : sizes ≠ []) (h1 : ∀ n ∈ sizes, 0 < n) :
    ∃ d, boundedBy (sizes.map (fun n : Nat => (n : Int) - 1)) =
      .ok (ofNats d ((List.range sizes.prod).map (unravelF sizes))) := by
  obtain ⟨P, hP⟩ := (boundedBy_ok_iff (sizes.map fun n : Nat => (n : Int) - 1) 0).2 ⟨by simpa using h0, by
    intro x hx
    obtain ⟨n, hn, rfl⟩ := List.mem_map.1 hx
    have := h1 n hn
    omega⟩
  refine ⟨P.dim, ?_⟩
  rw [hP, ofNats, List.map_map]
  have := boundedBy_rows _ _ hP
  rw [show P = ⟨P.dim, P.rows⟩ from rfl, this]; rfl

/-- C48. Column of column-major number of `idx` of the evaluation of a full tensor product basis: the product of the 1-d
basis functions of numbers `idx`. -/
theorem evalFull_spec [CommSemiring K] (Hx : List (Arr K)) (h0 : Hx ≠ []) (n : Nat) (hn : ∀ H ∈ Hx, ∃ c, 0 < c ∧ H.shape = [n, c]) :
    ∃ y, evalFull Hx = .ok y ∧ y.shape = [n, (Hx.map (fun H => H.shape.getD 1 0)).prod] ∧
      ∀ p idx, InBox (Hx.map (fun H => H.shape.getD 1 0)) idx →
        y.get [p, colMajor (Hx.map (fun H => H.shape.getD 1 0)) idx] =
          (List.zipWith (fun (H : Arr K) j => H.get [p, j]) Hx idx).prod := by
  obtain ⟨d, hd⟩ := ind_full (Hx.map (fun H => H.shape.getD 1 0)) (by simpa using h0) (by
    intro c hc
    obtain ⟨H, hH, rfl⟩ := List.mem_map.1 hc
    obtain ⟨c, hc, hs⟩ := hn H hH
    simpa [hs] using hc)
  obtain ⟨y, hy, hs, hv⟩ := evalSparse_spec Hx h0 n (fun H hH => (hn H hH).imp (fun c hc => hc.2)) d
    ((List.range (Hx.map (fun H => H.shape.getD 1 0)).prod).map (unravelF (Hx.map (fun H => H.shape.getD 1 0)))) (by
      intro i hi
      obtain ⟨k, hk, rfl⟩ := List.mem_map.1 hi
      exact unravelF_inBox (List.mem_range.1 hk))
  rw [List.map_map] at hd
  refine ⟨y, by unfold evalFull; rw [show (fun H : Arr K => ((H.shape.getD 1 0 : Nat) : Int) - 1) =
    (fun n : Nat => (n : Int) - 1) ∘ (fun H => H.shape.getD 1 0) from rfl, hd]; exact hy, by rw [hs]; simp, fun p idx hi => ?_⟩
  rw [hv, ← ravelF_eq_colMajor _ _ (by rw [hi.length_eq]),
    List.getD_eq_getElem _ _ (by rw [List.length_map, List.length_range]; exact ravelF_lt hi), List.getElem_map, List.getElem_range,
    unravelF_ravelF hi]

/-- Entry `k` of the mean of a sparse tensor product basis is the product of the means of the 1-d functions of the
multi-index `k`. -/
theorem meanSparse_spec [CommSemiring K] (M : List (List K)) (h0 : M ≠ []) (d : Nat) (ind : List (List Nat))
    (h : ∀ i ∈ ind, InBox (M.map List.length) i) :
    meanSparse M (ofNats d ind) = .ok (ind.map (fun i => (List.zipWith (fun (m : List K) j => m.getD j 0) M i).prod)) := by
  obtain ⟨m0, ms, rfl⟩ := List.exists_cons_of_ne_nil h0
  unfold meanSparse
  simp only [ofNats, picks_ok h]
  rfl

/-- Entry `(k, l)` of the Gram matrix is the product of the entries of the 1-d Gram matrices at the multi-indices `k` and
`l`. -/
theorem gramSparse_spec [CommSemiring K] (G : List (Arr K)) (h0 : G ≠ []) (d : Nat) (ind : List (List Nat))
    (h : ∀ i ∈ ind, InBox (G.map (fun H => H.shape.getD 1 0)) i) :
    ∃ y, gramSparse G (ofNats d ind) = .ok y ∧ y.shape = [ind.length, ind.length] ∧
      ∀ k l, y.get [k, l] = (List.zipWith (fun (H : Arr K) (p : Nat × Nat) => H.get [p.1, p.2]) G ((ind.getD k []).zip (ind.getD l []))).prod := by
  obtain ⟨H0, Hs, rfl⟩ := List.exists_cons_of_ne_nil h0
  unfold gramSparse
  simp only [ofNats, picks_ok h]
  exact ⟨_, rfl, by simp, fun k l => rfl⟩

/-- C48 (partial). The mean of a full tensor product basis has the right entries in ROW-major order: with one basis, or
when at most one basis has several functions, it agrees with the order of `eval`. -/
theorem meanFull_rowMajor [CommSemiring K] (M : List (List K)) (h0 : M ≠ []) :
    ∃ m, meanFull M = .ok m ∧ m.length = (M.map List.length).prod ∧
      ∀ idx, InBox (M.map List.length) idx →
        m[ravelC (M.map List.length) idx]? = some (List.zipWith (fun (v : List K) j => v.getD j 0) M idx).prod := by
  obtain ⟨y, hy, hs, hv⟩ := Canonical.full_spec _ (weights_wf M h0)
  have hs' : y.shape = M.map List.length := by
    rw [hs]; unfold Canonical.Cn.shape
    rw [List.map_map]; rfl
  refine ⟨ravelArrC y, by unfold meanFull; rw [hy]; rfl, by simp [ravelArrC, hs'], fun idx hi => ?_⟩
  unfold ravelArrC
  rw [List.getElem?_map, hs', List.getElem?_range (ravelC_lt hi)]
  simp only [Option.map_some, unravelC_ravelC hi]
  rw [hv _ (hs' ▸ hi)]
  simp only [List.length_singleton, sum_range_one, List.getD_cons_zero, one_mul]
  rw [List.zipWith_map_left]
  simp [column]

theorem meanFull_partial [CommSemiring K] (M : List (List K)) (h0 : M ≠ []) (h1 : OneLongAxis (M.map List.length)) :
    ∃ m, meanFull M = .ok m ∧
      ∀ idx, InBox (M.map List.length) idx →
        m[colMajor (M.map List.length) idx]? = some (List.zipWith (fun (v : List K) j => v.getD j 0) M idx).prod := by
  obtain ⟨m, hm, _, hv⟩ := meanFull_rowMajor M h0
  refine ⟨m, hm, fun idx hi => ?_⟩
  rw [← ravelF_eq_colMajor _ _ (by rw [hi.length_eq]), ← ravel_agree h1 hi, hv idx hi]

/-- With two bases of two functions the means of the functions (1, 0) and (0, 1) are exchanged: `mean()` is not the
quadrature of `eval`, for a quadrature that gives the right 1-d means. -/
theorem meanFull_wrong : ∃ (M : List (List ℚ)) (Hx : List (Arr ℚ)) (m : List ℚ) (y : Arr ℚ),
    (∀ i < 2, ∀ j < 2, (M.getD i []).getD j 0 = (Hx.getD i ⟨[], fun _ => 0⟩).get [0, j]) ∧
    meanFull M = .ok m ∧ evalFull Hx = .ok y ∧ y.shape = [1, 4] ∧ m.getD 1 0 ≠ y.get [0, 1] := by
  refine ⟨[[1, 2], [1, 3]], [⟨[1, 2], fun ij => if ij.getD 1 0 = 0 then 1 else 2⟩, ⟨[1, 2], fun ij => if ij.getD 1 0 = 0 then 1 else 3⟩],
    [1, 3, 2, 6], _, by decide +kernel, by decide +kernel, rfl, rfl, ?_⟩
  decide +kernel

/-! ### adaptation paths (C59) -/

theorem mem_uniq [LinearOrder K] (n : List K) (x : K) : x ∈ n.dedup.insertionSort (· ≤ ·) ↔ x ∈ n := by
  rw [List.mem_insertionSort, List.mem_dedup]

/-- C59. The candidate sets of the adaptation path of a sparse tensor basis: set `k` consists of the indices of norm at
most the `k`-th smallest norm; the sets are increasing, distinct, the first is not empty and the last is everything. -/
theorem adaptationPath_spec [LinearOrder K] (n : List K) (hn : n ≠ []) :
    ∃ t : List K, t.Pairwise (· < ·) ∧ (∀ x, x ∈ t ↔ x ∈ n) ∧
      (∀ i k, i < n.length → k < t.length →
        (((adaptationPath n).getD i []).getD k false = true ↔ ∃ a b, n[i]? = some a ∧ t[k]? = some b ∧ a ≤ b)) ∧
      (∀ i, i < n.length → ((adaptationPath n).getD i []).getD (t.length - 1) false = true) ∧
      (∃ i, i < n.length ∧ ((adaptationPath n).getD i []).getD 0 false = true) := by
  set t := n.dedup.insertionSort (· ≤ ·) with ht
  have hsorted : t.Pairwise (· ≤ ·) := List.pairwise_insertionSort _ _
  have hnd : t.Nodup := ((List.perm_insertionSort _ _).nodup_iff).2 n.nodup_dedup
  have hstrict : t.Pairwise (· < ·) := by
    refine (hsorted.and hnd).imp ?_
    intro a b hab
    exact lt_of_le_of_ne hab.1 hab.2
  have hmem := mem_uniq n
  rw [← ht] at hmem
  have hval : ∀ i k, i < n.length → k < t.length →
        (((adaptationPath n).getD i []).getD k false = true ↔ ∃ a b, n[i]? = some a ∧ t[k]? = some b ∧ a ≤ b) := by
    intro i k hi hk
    unfold adaptationPath
    dsimp only
    rw [← ht, getD_map_lt _ _ hi, getD_map_lt _ _ hk, decide_eq_true_iff]
    rw [List.getElem?_eq_getElem hi, List.getElem?_eq_getElem hk]
    constructor
    · intro h; exact ⟨_, _, rfl, rfl, h⟩
    · rintro ⟨a, b, h1, h2, h⟩
      injection h1 with h1; injection h2 with h2
      subst h1; subst h2; exact h
  obtain ⟨x0, hx0⟩ := List.exists_mem_of_ne_nil n hn
  have htpos : 0 < t.length := List.length_pos_iff.2 (List.ne_nil_of_mem ((hmem x0).2 hx0))
  refine ⟨t, hstrict, hmem, hval, fun i hi => ?_, ?_⟩
  · rw [hval i _ hi (by omega)]
    have : n[i] ∈ t := (hmem _).2 (List.getElem_mem hi)
    obtain ⟨j, hj, he⟩ := List.getElem_of_mem this
    refine ⟨n[i], t[t.length - 1], List.getElem?_eq_getElem hi, List.getElem?_eq_getElem _, ?_⟩
    rw [← he]
    rcases Nat.lt_or_eq_of_le (show j ≤ t.length - 1 by omega) with h | h
    · exact List.pairwise_iff_getElem.1 hsorted j (t.length - 1) hj (by omega) h
    · subst h; exact le_refl _
  · have : t[0] ∈ n := (hmem _).1 (List.getElem_mem htpos)
    obtain ⟨i, hi, he⟩ := List.getElem_of_mem this
    exact ⟨i, hi, (hval i 0 hi htpos).2 ⟨n[i], t[0], List.getElem?_eq_getElem hi, List.getElem?_eq_getElem _, by rw [he]⟩⟩

/-- The sets are nested. -/
theorem adaptationPath_nested [LinearOrder K] (n : List K) (i k l : Nat) (hkl : k ≤ l)
    (hl : l < (n.dedup.insertionSort (· ≤ ·)).length) (hi : i < n.length)
    (h : ((adaptationPath n).getD i []).getD k false = true) : ((adaptationPath n).getD i []).getD l false = true := by
  have hsorted : (n.dedup.insertionSort (· ≤ ·)).Pairwise (· ≤ ·) := List.pairwise_insertionSort _ _
  unfold adaptationPath at h ⊢
  dsimp only at h ⊢
  rw [getD_map_lt _ _ hi, getD_map_lt _ _ (by omega), decide_eq_true_iff] at h ⊢
  refine le_trans h ?_
  rcases Nat.lt_or_eq_of_le hkl with h' | h'
  · exact List.pairwise_iff_getElem.1 hsorted k l _ hl h'
  · subst h'; exact le_refl _

/-- The default path: set `k` is made of the first `k + 1` basis functions. -/
theorem triuPath_spec (card i k : Nat) (hi : i < card) (hk : k < card) :
    ((triuPath card).getD i []).getD k false = true ↔ i ≤ k := by
  unfold triuPath
  rw [getD_map_lt _ _ (by simpa using hi), getD_map_lt _ _ (by simpa using hk), List.getElem_range, List.getElem_range,
    decide_eq_true_iff]

example : adaptationPath [1, 0, 2, 1] = [[false, true, true], [true, true, true], [false, false, true], [false, true, true]] := by decide

/-! ### splitting of the variables (C60) -/

theorem hsplit_shift (parts : List (List K)) (h : parts ≠ []) (pre : List K) :
    hsplit (pre ++ parts.flatten) pre.length ((parts.map List.length).scanl (· + ·) pre.length).tail.dropLast = parts := by
  induction parts generalizing pre with
  | nil => exact absurd rfl h
  | cons p parts ih =>
    cases parts with
    | nil => simp [hsplit]
    | cons q r =>
      have := ih (by simp) (pre ++ p)
      simp only [List.map_cons, List.scanl_cons, List.tail_cons, List.flatten_cons, List.length_append, List.append_assoc] at this ⊢
      rw [List.dropLast_cons_of_ne_nil (by simp)]
      unfold hsplit
      rw [this]
      congr 1
      rw [List.take_append, List.take_of_length_le (by omega), Nat.add_sub_cancel_left, List.take_append, List.take_of_length_le (le_refl _)]
      simp

theorem lookups_ok {α : Type} (l : List α) (dims : List Nat) (h : ∀ i ∈ dims, i < l.length) (d : α) :
    dims.mapM (lookup l) =
      .ok (dims.map (fun i => l.getD i d)) := by
  rw [mapM_ok_iff, List.forall₂_map_right_iff, List.forall₂_same]
  intro i hi
  unfold lookup
  rw [List.getElem?_eq_getElem (h i hi), List.getD_eq_getElem _ _ (h i hi)]

/-- C60. `eval(x, dims)` gives basis `dims[k]` the `k`-th block of the columns of `x`, of its number of variables. -/
theorem basesEval_spec {V : Type} (bases : List (List K → V)) (ndims : List Nat) (dims : List Nat) (h0 : dims ≠ [])
    (h1 : ∀ i ∈ dims, i < bases.length) (h2 : ∀ i ∈ dims, i < ndims.length) (parts : List (List K))
    (hp : parts.map List.length = dims.map (fun i => ndims.getD i 0)) (d : List K → V) :
    basesEval bases ndims parts.flatten dims = .ok (List.zipWith (fun i z => bases.getD i d z) dims parts) := by
  have hne : parts ≠ [] := by
    rintro rfl
    simp at hp
    exact h0 hp
  unfold basesEval
  rw [lookups_ok bases dims h1 d, lookups_ok ndims dims h2 0]
  simp only [bind, Except.bind]
  rw [← hp]
  have := hsplit_shift parts hne []
  simp only [List.nil_append, List.length_nil] at this
  unfold cumsumNat
  rw [this, List.zipWith_map_left]

example : basesEval [fun x : List ℚ => x.sum, fun x => x.prod] [2, 1] [3, 4, 5] [0, 1] = .ok [7, 5] := by decide +kernel

/-! ### means under a random vector (C61) -/

/-- C61 (partial: the dimensions are the first ones, in order). The mean of each basis is taken under its marginal. -/
theorem basesMean_partial {B Mu V : Type} (meanOf : B → Mu → V) (bases : List B) (rvs : List Mu) (k : Nat) (hk : k ≤ bases.length)
    (h : rvs.length = bases.length) (b0 : B) (m0 : Mu) :
    basesMean meanOf bases (List.range k) rvs = .ok ((List.range k).map (fun i => meanOf (bases.getD i b0) (rvs.getD i m0))) := by
  unfold basesMean
  rw [lookups_ok bases _ (by intro i hi; have := List.mem_range.1 hi; omega) b0]
  simp only [bind, Except.bind]
  congr 1
  apply List.ext_getElem (by simp; omega)
  intro i h1 h2
  simp at h2
  simp only [List.getElem_zipWith, List.getElem_map, List.getElem_range]
  rw [List.getD_eq_getElem rvs _ (by omega)]

/-- In general basis `dims[k]` is averaged under the marginal `k` and not `dims[k]`. -/
theorem basesMean_general {B Mu V : Type} (meanOf : B → Mu → V) (bases : List B) (rvs : List Mu) (dims : List Nat)
    (h : ∀ i ∈ dims, i < bases.length) (hr : dims.length ≤ rvs.length) (b0 : B) (m0 : Mu) :
    basesMean meanOf bases dims rvs = .ok (dims.mapIdx (fun k i => meanOf (bases.getD i b0) (rvs.getD k m0))) := by
  unfold basesMean
  rw [lookups_ok bases _ h b0]
  simp only [bind, Except.bind]
  congr 1
  apply List.ext_getElem (by simp; omega)
  intro i h1 h2
  simp at h2
  simp only [List.getElem_zipWith, List.getElem_map, List.getElem_mapIdx]
  rw [List.getD_eq_getElem rvs _ (by omega)]

theorem basesMean_wrong : ∃ (meanOf : Nat → Nat → Nat) (bases rvs : List Nat), rvs.length = bases.length ∧
    basesMean meanOf bases [1] rvs ≠ .ok [meanOf (bases.getD 1 0) (rvs.getD 1 0)] :=
  ⟨fun b m => b + m, [0, 0], [1, 2], rfl, by decide⟩

/-! ### selection of bases (C62) -/

/-- C62. `keep_bases(ind)` and `transpose(ind)` keep the bases of numbers `ind`, in this order; the attribute `measure`
stays the measure of all the bases. -/
theorem keep_spec {B Mu : Type} (measureOf : B → Mu) (bases : List B) (ind : List Nat) (h : ∀ i ∈ ind, i < bases.length) (b0 : B) :
    (FBs.mk' measureOf bases).keep ind = .ok ⟨ind.map (fun i => bases.getD i b0), bases.map measureOf⟩ := by
  unfold FBs.keep FBs.mk'
  rw [lookups_ok bases ind h b0]; rfl

/-- The measure of the kept bases is right exactly when the measures of the kept bases are, in order, those of all the
bases. -/
theorem keep_measure_iff {B Mu : Type} (measureOf : B → Mu) (bases : List B) (ind : List Nat) (h : ∀ i ∈ ind, i < bases.length) (b0 : B) :
    (FBs.mk' measureOf bases).keep ind = .ok (FBs.mk' measureOf (ind.map (fun i => bases.getD i b0))) ↔
      ind.map (fun i => measureOf (bases.getD i b0)) = bases.map measureOf := by
  rw [keep_spec measureOf bases ind h b0]
  unfold FBs.mk'
  rw [Except.ok.injEq, FBs.mk.injEq, List.map_map]
  constructor
  · rintro ⟨_, h⟩; exact h.symm
  · intro h; exact ⟨rfl, h.symm⟩

/-- The measure of the bases that remain after `keep_bases([1])` is not theirs. -/
theorem keep_measure_wrong : ∃ (bases : List Nat) (F : FBs Nat Nat), (FBs.mk' id bases).keep [1] = .ok F ∧
    F.measure ≠ F.bases.map id := ⟨[5, 6], ⟨[6], [5, 6]⟩, by decide, by decide⟩

theorem remove_keep {B Mu : Type} (F : FBs B Mu) (ind : List Nat) (h : ∀ i ∈ ind, i < F.bases.length) :
    F.remove ind = F.keep ((List.range F.bases.length).filter (fun i => !ind.contains i)) := by
  unfold FBs.remove FBs.keep
  rw [if_pos h]
  have key : ∀ (l : List B) (s : Nat) (L : List B), (∀ i (hi : i < l.length), L[s + i]? = some l[i]) →
      ((List.range' s l.length).filter (fun i => !ind.contains i)).mapM
        (lookup L) =
        .ok (((l.zipIdx s).filter (fun p => !ind.contains p.2)).map Prod.fst) := by
    intro l
    induction l with
    | nil => intro s L _; rfl
    | cons a l ih =>
      intro s L hL
      have h0 := hL 0 (by simp)
      simp only [Nat.add_zero, List.getElem_cons_zero] at h0
      have e := ih (s + 1) L (fun i hi => by
        have := hL (i + 1) (by simp; omega)
        rw [List.getElem_cons_succ] at this
        rw [← this]; congr 1; omega)
      rw [List.length_cons, List.range'_succ, List.zipIdx_cons, List.filter_cons, List.filter_cons]
      by_cases hc : (!ind.contains s) = true
      · rw [if_pos hc, if_pos hc, List.mapM_cons, e, lookup, h0]; rfl
      · rw [if_neg hc, if_neg hc, e]
  rw [List.range_eq_range', key F.bases 0 F.bases (fun i hi => by rw [Nat.zero_add, List.getElem?_eq_getElem hi])]
  rfl

/-! ### conditional expectation -/

/-- C48. The array computed by `conditional_expectation(dims)`: the rows are the projections `J` of the multi-indices on
`dims`, and column `i` has, in the row of the projection of the multi-index `i`, the product of the means of the 1-d
functions of its other entries, and zeros elsewhere. -/
theorem condArray_spec [CommSemiring K] (M : List (List K)) (d : Nat) (ind : List (List Nat)) (hne : ind ≠ [])
    (hd : ∀ r ∈ ind, r.length = d) (dims : List Nat) (h : ∀ k ∈ dims, k < d)
    (hM : ∀ r ∈ ind, InBox (M.map List.length) (((List.range d).filter (fun k => !dims.contains k)).map (fun k => r.getD k 0))) :
    ∃ D J, condArray M (ofNats d ind) dims = .ok (D, J) ∧ keepDims (ofNats d ind) (dims.map Int.ofNat) = .ok J ∧
      D.shape = [J.rows.length, ind.length] ∧
      ∀ j i, j < J.rows.length → i < ind.length →
        D.get [j, i] = if J.rows.getD j [] = dims.map (fun k => ((ind.getD i []).getD k 0 : Int)) then
          (List.zipWith (fun (m : List K) k => m.getD k 0) M
            (((List.range d).filter (fun k => !dims.contains k)).map (fun k => (ind.getD i []).getD k 0))).prod else 0 := by
  have hne' : (ofNats d ind).rows ≠ [] := by simpa [ofNats] using hne
  obtain ⟨J, hJ, _, _, hnd, hmem, _⟩ := keepDims_spec (ofNats d ind) hne' dims h
  have hget : ∀ (r : List Nat) k, (r.map Int.ofNat).getD k 0 = Int.ofNat (r.getD k 0) := by
    intro r k
    by_cases hk : k < r.length
    · rw [List.getD_eq_getElem _ _ (by simpa using hk), List.getElem_map, List.getD_eq_getElem _ _ hk]
    · rw [List.getD_eq_default _ _ (by simp; omega), List.getD_eq_default _ _ (by omega)]; rfl
  have hcols : (ofNats d ind).rows.mapM (fun r => pick (M.map List.length)
      (((List.range d).filter (fun k => !dims.contains k)).map (fun k => r.getD k 0))) =
      .ok (ind.map (fun r => ((List.range d).filter (fun k => !dims.contains k)).map (fun k => r.getD k 0))) := by
    unfold ofNats
    rw [mapM_ok_iff, List.forall₂_map_left_iff, List.forall₂_map_right_iff, List.forall₂_same]
    intro r hr
    rw [← pick_ok (hM r hr), List.map_map]
    congr 1
    apply List.map_congr_left
    intro k _
    exact hget r k
  have hc : condArray M (ofNats d ind) dims = .ok (⟨[J.rows.length, ind.length], fun ji =>
      if ((ofNats d ind).rows.map (fun r => J.rows.idxOf (dims.map (fun k => r.getD k 0)))).getD (ji.getD 1 0) 0 = ji.getD 0 0 then
        ((ind.map (fun r => ((List.range d).filter (fun k => !dims.contains k)).map (fun k => r.getD k 0))).map
          (fun c => (List.zipWith (fun (v : List K) j => v.getD j 0) M c).prod)).getD (ji.getD 1 0) 0 else 0⟩, J) := by
    unfold condArray
    simp only [hJ]
    simp only [bind, Except.bind]
    rw [show (ofNats d ind).dim = d from rfl, hcols]
    simp [ofNats]
  refine ⟨_, J, hc, hJ, rfl, fun j i hj hi => ?_⟩
  simp only [List.getD_cons_zero, List.getD_cons_succ]
  rw [getD_map_lt _ _ (by simpa [ofNats] using hi), List.map_map, getD_map_lt _ _ hi, List.getD_eq_getElem _ _ hj,
    List.getD_eq_getElem _ _ hi]
  have hrow : (ofNats d ind).rows[i]'(by simpa [ofNats] using hi) = (ind[i]).map Int.ofNat := by simp [ofNats]
  have hp : dims.map (fun k => ((ind[i]).map Int.ofNat).getD k 0) = dims.map (fun k => ((ind[i].getD k 0 : Nat) : Int)) :=
    List.map_congr_left (fun k _ => hget _ k)
  have hin : dims.map (fun k => ((ind[i].getD k 0 : Nat) : Int)) ∈ J.rows := by
    rw [hmem]
    exact ⟨(ind[i]).map Int.ofNat, List.mem_map_of_mem (List.getElem_mem hi), hp.symm⟩
  rw [hrow, hp]
  simp only [Function.comp]
  by_cases he : J.rows[j] = dims.map (fun k => ((ind[i].getD k 0 : Nat) : Int))
  · rw [if_pos he, if_pos (by rw [← he]; exact hnd.idxOf_getElem j hj)]
  · rw [if_neg he, if_neg]
    intro hx
    apply he
    have hlt := List.idxOf_lt_length_iff.2 hin
    have := List.getElem_idxOf hlt
    rw [← this]
    congr 1
    exact hx.symm

/-- The array then goes through the constructor of `FunctionalBasisArray`, which permutes its entries: the values that
`conditional_expectation(dims)` of a sparse tensor basis represents are not those of `condArray_spec`. -/
theorem condExp_wrong : ∃ (M : List (List ℚ)) (ind J : MI) (d : Arr ℚ) (h : FBA ℚ),
    condArray M ind [0] = .ok (d, J) ∧ conditionalExpectation M ind [0] = .ok (h, J) ∧
      d.shape = [2, 4] ∧ J.rows = [[0], [1]] ∧ ¬ (h.data ≃ₐ d) := by
  refine ⟨[[1, 5]], ⟨2, [[0, 0], [1, 0], [0, 1], [1, 1]]⟩, ⟨1, [[0], [1]]⟩, _, _, rfl, rfl, rfl, rfl, ?_⟩
  intro h
  have := h.2 [0, 2] (by decide)
  revert this
  decide +kernel

end Verif.Bases
