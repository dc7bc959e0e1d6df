import Verif.Props.MultiIndices

/-! # Properties C07-C10: margins, maximal elements, downward closedness -/

namespace Verif.MultiIndices

/-! ## C07: margin -/

/-- C07. `get_margin()` returns, each once, exactly the multi-indices not in the set that are obtained
from an element of the set by adding one to one component. -/
theorem getMargin_spec (I : MI) (hI : I.WF) (hne : I.rows ≠ []) (hd : 0 < I.dim) :
    (∀ v, v ∈ (getMargin I).rows ↔
      v ∉ I.rows ∧ ∃ u ∈ I.rows, ∃ k < I.dim, v = u.modify k (· + 1)) ∧
    (getMargin I).rows.Nodup ∧ (getMargin I).dim = I.dim ∧ (getMargin I).rows ≠ [] := by
  have h := getMargin_rows I hI hne hd
  refine ⟨mem_getMargin I hI hne hd, ?_, h.2, ?_⟩
  · rw [h.1]; exact nodup_dedupFirst _
  · rw [h.1]; exact margin_candidates_ne_nil I hI hne hd

/-- C07 finding: the margin of an empty set is reported as one multi-index of dimension zero. -/
theorem getMargin_empty (d : Nat) : getMargin ⟨d, []⟩ = ⟨0, [[]]⟩ := by
  simp [getMargin_eq, neighbours, MI.cardinal, dedupFirst, dedupAux, ofRows]

example : (getMargin ⟨2, [[0, 0], [1, 0]]⟩).rows = [[2, 0], [0, 1], [1, 1]] := by decide
example : (⟨2, [[0, 0], [1, 0]]⟩ : MI).WF := by decide

/-! ## Order lemmas -/

theorem RowLE.refl (u : List Int) : RowLE u u := List.forall₂_same.2 (fun _ _ => le_rfl)

theorem RowLE.trans {u v w : List Int} (h1 : RowLE u v) (h2 : RowLE v w) : RowLE u w := by
  unfold RowLE at *
  induction h1 generalizing w with
  | nil => exact h2
  | cons h _ ih =>
    cases h2 with
    | cons h' h2 => exact .cons (le_trans h h') (ih h2)

theorem RowLE.length_eq {u v : List Int} (h : RowLE u v) : u.length = v.length :=
  List.Forall₂.length_eq h

theorem RowLE.antisymm {u v : List Int} (h1 : RowLE u v) (h2 : RowLE v u) : u = v := by
  unfold RowLE at *
  induction h1 with
  | nil => rfl
  | cons h _ ih =>
    cases h2 with
    | cons h' h2 => rw [ih h2, le_antisymm h h']

theorem RowLE.sum_le {u v : List Int} (h : RowLE u v) : u.sum ≤ v.sum := by
  unfold RowLE at h
  induction h with
  | nil => simp
  | cons h _ ih => simp only [List.sum_cons]; linarith

/-- Strictly below: one component can be decreased. -/
theorem RowLE.exists_pred {u v : List Int} (h : RowLE u v) (hne : u ≠ v) :
    ∃ k < v.length, RowLE u (v.modify k (· + -1)) := by
  unfold RowLE at *
  induction h with
  | nil => exact absurd rfl hne
  | @cons a b l l' h h' ih =>
    by_cases hab : a = b
    · subst hab
      have : l ≠ l' := fun e => hne (by rw [e])
      obtain ⟨k, hk, hk'⟩ := ih this
      refine ⟨k + 1, by simp [hk], ?_⟩
      simp only [List.modify_succ_cons, List.forall₂_cons, le_refl, true_and]
      exact hk'
    · refine ⟨0, by simp, ?_⟩
      simp only [List.modify_zero_cons, List.forall₂_cons]
      exact ⟨by omega, h'⟩

theorem RowLE.exists_succ {u v : List Int} (h : RowLE u v) (hne : u ≠ v) :
    ∃ k < u.length, RowLE (u.modify k (· + 1)) v := by
  unfold RowLE at *
  induction h with
  | nil => exact absurd rfl hne
  | @cons a b l l' h h' ih =>
    by_cases hab : a = b
    · subst hab
      have : l ≠ l' := fun e => hne (by rw [e])
      obtain ⟨k, hk, hk'⟩ := ih this
      refine ⟨k + 1, by simp [hk], ?_⟩
      simp only [List.modify_succ_cons, List.forall₂_cons, le_refl, true_and]
      exact hk'
    · refine ⟨0, by simp, ?_⟩
      simp only [List.modify_zero_cons, List.forall₂_cons]
      exact ⟨by omega, h'⟩

theorem modify_rowLE (u : List Int) (k : Nat) (s : Int) (hs : 0 ≤ s) : RowLE u (u.modify k (· + s)) := by
  unfold RowLE
  induction u generalizing k with
  | nil => simp
  | cons a u ih =>
    cases k with
    | zero => simp only [List.modify_zero_cons, List.forall₂_cons]
              exact ⟨by omega, RowLE.refl u⟩
    | succ k => simp only [List.modify_succ_cons, List.forall₂_cons, le_refl, true_and]; exact ih k

theorem modify_rowLE' (u : List Int) (k : Nat) (s : Int) (hs : s ≤ 0) : RowLE (u.modify k (· + s)) u := by
  unfold RowLE
  induction u generalizing k with
  | nil => simp
  | cons a u ih =>
    cases k with
    | zero => simp only [List.modify_zero_cons, List.forall₂_cons]
              exact ⟨by omega, RowLE.refl u⟩
    | succ k => simp only [List.modify_succ_cons, List.forall₂_cons, le_refl, true_and]; exact ih k

theorem modify_modify (u : List Int) (k : Nat) (s : Int) :
    (u.modify k (· + -s)).modify k (· + s) = u := by
  induction u generalizing k with
  | nil => simp
  | cons a u ih => cases k <;> simp [ih]

theorem modify_ne (u : List Int) (k : Nat) (hk : k < u.length) (s : Int) (hs : s ≠ 0) :
    u.modify k (· + s) ≠ u := by
  intro h
  have := congrArg List.sum h
  rw [sum_modify u k hk] at this
  omega

theorem RowLE.ge_of_ge {u v : List Int} (h : RowLE u v) {m : Int} (hu : ∀ x ∈ u, m ≤ x) :
    ∀ x ∈ v, m ≤ x := by
  unfold RowLE at h
  induction h with
  | nil => simp
  | cons h _ ih =>
    simp only [List.forall_mem_cons] at hu ⊢
    exact ⟨le_trans hu.1 h, ih hu.2⟩

theorem modify_nonneg_or_neg (v : List Int) (k : Nat) :
    (∀ x ∈ v.modify k (· + -1), 0 ≤ x) ∨ ∃ x ∈ v.modify k (· + -1), x < 0 := by
  by_cases h : ∀ x ∈ v.modify k (· + -1), 0 ≤ x
  · exact .inl h
  · right; push Not at h; exact h

theorem zero_rowLE (v : List Int) (hv : ∀ x ∈ v, 0 ≤ x) : RowLE (List.replicate v.length 0) v := by
  unfold RowLE
  induction v with
  | nil => simp
  | cons a v ih =>
    simp only [List.forall_mem_cons] at hv
    simp only [List.length_cons, List.replicate_succ, List.forall₂_cons]
    exact ⟨hv.1, ih hv.2⟩

/-! ## C08: reduced margin -/

theorem getReducedMargin_rows (I : MI) (hI : I.WF) (hne : I.rows ≠ []) (hd : 0 < I.dim) :
    (getReducedMargin I).rows = (getMargin I).rows.filter (fun v => decide (∀ k < I.dim,
      v.modify k (· + -1) ∈ I.rows ∨ ∃ x ∈ v.modify k (· + -1), x < 0)) := by
  unfold getReducedMargin
  simp only
  have hM := getMargin_wf I hI hne hd
  have hMd := (getMargin_rows I hI hne hd).2
  rw [← map_filter_range (getMargin I).rows []]
  congr 1
  apply List.filter_congr
  intro i hi
  rw [List.mem_range] at hi
  rw [Bool.eq_iff_iff, List.all_eq_true, decide_eq_true_eq]
  simp only [List.mem_range, hMd]
  refine forall_congr' fun k => forall_congr' fun hk => ?_
  have h := neighbours_getD (getMargin I) hM (-1) i k hi (by omega)
    (fun v => I.rows.contains v || v.any (fun x => decide (x < 0)))
  rw [hMd] at h
  rw [h]
  simp

theorem mem_getReducedMargin (I : MI) (hI : I.WF) (hne : I.rows ≠ []) (hd : 0 < I.dim)
    (v : List Int) :
    v ∈ (getReducedMargin I).rows ↔ v ∈ (getMargin I).rows ∧ ∀ k < I.dim,
      v.modify k (· + -1) ∈ I.rows ∨ ∃ x ∈ v.modify k (· + -1), x < 0 := by
  rw [getReducedMargin_rows I hI hne hd, List.mem_filter, decide_eq_true_eq]

/-- C08. For a downward closed set, the reduced margin is exactly the set of multi-indices outside
the set whose addition keeps it downward closed. -/
theorem getReducedMargin_spec (I : MI) (hI : I.WF) (hne : I.rows ≠ []) (hd : 0 < I.dim)
    (hnn : NonNeg I.rows) (hdc : DownClosed 0 I.rows) (v : List Int) :
    v ∈ (getReducedMargin I).rows ↔
      v ∉ I.rows ∧ v.length = I.dim ∧ (∀ x ∈ v, 0 ≤ x) ∧ DownClosed 0 (v :: I.rows) := by
  rw [mem_getReducedMargin I hI hne hd, mem_getMargin I hI hne hd]
  constructor
  · rintro ⟨⟨h1, u, hu, k, hk, rfl⟩, h2⟩
    have hvl : (u.modify k (· + 1)).length = I.dim := by rw [List.length_modify, hI u hu]
    refine ⟨h1, hvl, (modify_rowLE u k 1 (by omega)).ge_of_ge (hnn u hu), ?_⟩
    intro w hw z hz hz0
    rcases List.mem_cons.1 hw with rfl | hw
    · by_cases he : z = u.modify k (· + 1)
      · rw [he]; simp
      · right
        obtain ⟨j, hj, hzj⟩ := hz.exists_pred he
        rcases h2 j (by omega) with h3 | ⟨x, hx, hx0⟩
        · exact hdc _ h3 z hzj hz0
        · exact absurd (hzj.ge_of_ge hz0 x hx) (by omega)
    · exact List.mem_cons_of_mem _ (hdc w hw z hz hz0)
  · rintro ⟨h1, hl, hv0, hcl⟩
    have hpred : ∀ k < I.dim, v.modify k (· + -1) ∈ I.rows ∨ ∃ x ∈ v.modify k (· + -1), x < 0 := by
      intro k hk
      rcases modify_nonneg_or_neg v k with h | h
      · left
        have := hcl v (by simp) _ (modify_rowLE' v k (-1) (by omega)) h
        rcases List.mem_cons.1 this with h' | h'
        · exact absurd h' (modify_ne v k (by omega) (-1) (by omega))
        · exact h'
      · exact .inr h
    refine ⟨⟨h1, ?_⟩, hpred⟩
    obtain ⟨w, hw⟩ := List.exists_mem_of_ne_nil _ hne
    have hz : List.replicate v.length 0 ∈ I.rows := by
      have := hdc w hw (List.replicate w.length 0) (zero_rowLE w (hnn w hw))
        (by intro x hx; rw [List.eq_of_mem_replicate hx])
      rwa [hI w hw, ← hl] at this
    have hne' : List.replicate v.length 0 ≠ v := fun e => h1 (e ▸ hz)
    obtain ⟨k, hk, hle⟩ := (zero_rowLE v hv0).exists_pred hne'
    refine ⟨v.modify k (· + -1), ?_, k, by omega, ?_⟩
    · rcases hpred k (by omega) with h | ⟨x, hx, hx0⟩
      · exact h
      · have := hle.ge_of_ge (m := 0) (by intro x hx; rw [List.eq_of_mem_replicate hx]) x hx
        omega
    · exact (modify_modify v k 1).symm

/-- C08. Adding any part of the reduced margin to a downward closed set keeps it downward closed. -/
theorem addIndices_downClosed (I J : MI) (hI : I.WF) (hne : I.rows ≠ []) (hd : 0 < I.dim)
    (hnn : NonNeg I.rows) (hdc : DownClosed 0 I.rows)
    (hJ : ∀ v ∈ J.rows, v ∈ (getReducedMargin I).rows) :
    DownClosed 0 (addIndices I J).rows ∧ NonNeg (addIndices I J).rows ∧ (addIndices I J).WF ∧
      (addIndices I J).dim = I.dim ∧ (addIndices I J).rows ≠ [] := by
  have hm := (addIndices_spec I J hne).1
  have hs := fun v hv => (getReducedMargin_spec I hI hne hd hnn hdc v).1 (hJ v hv)
  refine ⟨?_, ?_, ?_, (addIndices_rows I J hne).2, ?_⟩
  · intro v hv u hu hu0
    rw [hm] at hv ⊢
    rcases hv with hv | hv
    · exact .inl (hdc v hv u hu hu0)
    · have := (hs v hv).2.2.2 v (by simp) u hu hu0
      rcases List.mem_cons.1 this with rfl | h
      · exact .inr hv
      · exact .inl h
  · intro v hv
    rw [hm] at hv
    rcases hv with hv | hv
    · exact hnn v hv
    · exact (hs v hv).2.2.1
  · intro v hv
    rw [hm] at hv
    rw [(addIndices_rows I J hne).2]
    rcases hv with hv | hv
    · exact hI v hv
    · exact (hs v hv).2.1
  · obtain ⟨v, hv⟩ := List.exists_mem_of_ne_nil _ hne
    exact List.ne_nil_of_mem ((hm v).2 (.inl hv))

/-- An adaptive enrichment: at each step a selection (any function of the current set) picks rows of
the reduced margin, which are added. -/
def enrich (I : MI) (select : MI → List Int → Bool) : MI :=
  addIndices I ⟨I.dim, (getReducedMargin I).rows.filter (select I)⟩

/-- C08. Every set reached by any history of such enrichments is downward closed. -/
theorem enrich_history_downClosed (I : MI) (hI : I.WF) (hne : I.rows ≠ []) (hd : 0 < I.dim)
    (hnn : NonNeg I.rows) (hdc : DownClosed 0 I.rows) (history : List (MI → List Int → Bool)) :
    DownClosed 0 (history.foldl enrich I).rows := by
  induction history generalizing I with
  | nil => exact hdc
  | cons s history ih =>
    have h := addIndices_downClosed I ⟨I.dim, (getReducedMargin I).rows.filter (s I)⟩ hI hne hd hnn hdc
      (fun v hv => (List.mem_filter.1 hv).1)
    refine ih (enrich I s) h.2.2.1 h.2.2.2.2 ?_ h.2.1 h.1
    show 0 < (addIndices I _).dim
    rw [h.2.2.2.1]; exact hd

example : (getReducedMargin ⟨2, [[0, 0], [1, 0]]⟩).rows = [[2, 0], [0, 1]] := by decide

/-! ## C09: maximal elements -/

theorem getMaximalIndices_rows (I : MI) (hI : I.WF) :
    (getMaximalIndices I).rows =
      I.rows.filter (fun v => decide (∀ k < I.dim, v.modify k (· + 1) ∉ I.rows)) := by
  unfold getMaximalIndices
  simp only
  rw [← map_filter_range I.rows []]
  congr 1
  apply List.filter_congr
  intro i hi
  rw [List.mem_range] at hi
  rw [Bool.eq_iff_iff, Bool.not_eq_true', decide_eq_true_eq, List.any_eq_false]
  simp only [List.mem_range]
  refine forall_congr' fun k => forall_congr' fun hk => ?_
  have h := neighbours_getD I hI 1 i k hi hk (fun v => I.rows.contains v)
  rw [h]
  simp

/-- C09. On a downward closed set, `get_maximal_indices` returns exactly the elements that have no
other element of the set above them. -/
theorem getMaximalIndices_spec (I : MI) (hI : I.WF) (hnn : NonNeg I.rows)
    (hdc : DownClosed 0 I.rows) (v : List Int) :
    v ∈ (getMaximalIndices I).rows ↔ v ∈ I.rows ∧ ∀ w ∈ I.rows, RowLE v w → w = v := by
  rw [getMaximalIndices_rows I hI, List.mem_filter, decide_eq_true_eq]
  constructor
  · rintro ⟨hv, h⟩
    refine ⟨hv, fun w hw hvw => ?_⟩
    by_contra hne
    obtain ⟨k, hk, hle⟩ := hvw.exists_succ (Ne.symm hne)
    refine h k (by rw [hI v hv] at hk; exact hk) (hdc w hw _ hle ?_)
    exact (modify_rowLE v k 1 (by omega)).ge_of_ge (hnn v hv)
  · rintro ⟨hv, h⟩
    refine ⟨hv, fun k hk hc => ?_⟩
    exact modify_ne v k (by rw [hI v hv]; exact hk) 1 (by omega)
      (h _ hc (modify_rowLE v k 1 (by omega)))

theorem exists_maximal (S : List (List Int)) (v : List Int) (hv : v ∈ S) :
    ∃ w ∈ S, RowLE v w ∧ ∀ z ∈ S, RowLE w z → z = w := by
  classical
  have hne : S.filter (fun w => decide (RowLE v w)) ≠ [] :=
    List.ne_nil_of_mem (a := v) (by simp [hv, RowLE.refl])
  obtain ⟨w, hw, hmax⟩ := exists_max_sum _ hne
  simp only [List.mem_filter, decide_eq_true_eq] at hw hmax
  refine ⟨w, hw.1, hw.2, fun z hz hwz => ?_⟩
  have h1 := hmax z ⟨hz, hw.2.trans hwz⟩
  by_contra hne
  obtain ⟨k, hk, hle⟩ := hwz.exists_succ (Ne.symm hne)
  have h2 := hle.sum_le
  rw [sum_modify w k hk] at h2
  omega

/-- C09. A downward closed set is the union of the boxes below its maximal elements. -/
theorem mem_iff_below_maximal (I : MI) (hI : I.WF) (hnn : NonNeg I.rows)
    (hdc : DownClosed 0 I.rows) (v : List Int) :
    v ∈ I.rows ↔ (∀ x ∈ v, 0 ≤ x) ∧ ∃ w ∈ (getMaximalIndices I).rows, RowLE v w := by
  constructor
  · intro hv
    obtain ⟨w, hw, hvw, hmax⟩ := exists_maximal I.rows v hv
    exact ⟨hnn v hv, w, (getMaximalIndices_spec I hI hnn hdc w).2 ⟨hw, hmax⟩, hvw⟩
  · rintro ⟨h0, w, hw, hvw⟩
    exact hdc w ((getMaximalIndices_spec I hI hnn hdc w).1 hw).1 v hvw h0

example : (getMaximalIndices ⟨2, [[0, 0], [1, 0], [0, 1], [2, 0]]⟩).rows = [[0, 1], [2, 0]] := by decide

/-! ## C10: deciding downward closedness -/

theorem boundedBy_total (p : List Int) (m : Int) (hp : p ≠ []) (h : ∀ x ∈ p, m ≤ x) :
    ∃ Q, boundedBy p m = .ok Q ∧ ∀ u, u ∈ Q.rows ↔ RowLE u p ∧ ∀ x ∈ u, m ≤ x := by
  obtain ⟨Q, hQ⟩ := (boundedBy_ok_iff p m).2 ⟨hp, h⟩
  refine ⟨Q, hQ, fun u => ?_⟩
  rw [(mem_boundedBy hQ).1]
  constructor
  · intro hu
    refine ⟨hu.imp (fun a b hab => hab.2), ?_⟩
    clear hQ h hp
    induction hu with
    | nil => simp
    | cons h1 _ ih => simp only [List.forall_mem_cons]; exact ⟨h1.1, ih⟩
  · rintro ⟨h1, h2⟩
    unfold RowLE at h1
    clear hQ h hp
    induction h1 with
    | nil => exact .nil
    | cons h1 _ ih =>
      simp only [List.forall_mem_cons] at h2
      exact .cons ⟨h2.1, h1⟩ (ih h2.2)

theorem isDownwardClosedLoop_spec (I : MI) (hI : I.WF) (hd : 0 < I.dim) (m : Int)
    (hm : ∀ v ∈ I.rows, ∀ x ∈ v, m ≤ x) (fuel : Nat) (test : List Nat)
    (hfuel : test.length ≤ fuel) (htest : ∀ i ∈ test, i < I.cardinal)
    (hinv : ∀ i < I.cardinal, i ∉ test → ∀ u, RowLE u (I.rows.getD i []) → (∀ x ∈ u, m ≤ x) → u ∈ I.rows) :
    ∃ b, isDownwardClosedLoop I m fuel test = .ok b ∧ (b = true ↔ DownClosed m I.rows) := by
  induction fuel generalizing test with
  | zero =>
    have : test = [] := List.length_eq_zero_iff.1 (by omega)
    subst this
    refine ⟨true, rfl, ?_⟩
    simp only [true_iff]
    intro v hv u hu hu0
    obtain ⟨i, hi, rfl⟩ := List.getElem_of_mem hv
    exact hinv i hi (by simp) u (by rw [List.getD_eq_getElem _ _ hi]; exact hu) hu0
  | succ fuel ih =>
    cases test with
    | nil =>
      refine ⟨true, rfl, ?_⟩
      simp only [true_iff]
      intro v hv u hu hu0
      obtain ⟨i, hi, rfl⟩ := List.getElem_of_mem hv
      exact hinv i hi (by simp) u (by rw [List.getD_eq_getElem _ _ hi]; exact hu) hu0
    | cons t ts =>
      have hlast := List.getLast_mem (List.cons_ne_nil t ts)
      set l := (t :: ts).getLast (List.cons_ne_nil t ts) with hl
      have hlc := htest l hlast
      set p := I.rows.getD l [] with hp
      have hpm : p ∈ I.rows := by
        rw [hp, List.getD_eq_getElem _ _ hlc]; exact List.getElem_mem _
      have hpne : p ≠ [] := by
        intro e; have := hI p hpm; rw [e] at this; simp at this; omega
      obtain ⟨Q, hQ, hmem⟩ := boundedBy_total p m hpne (hm p hpm)
      unfold isDownwardClosedLoop
      rw [← hl, ← hp]; dsimp only; rw [hQ]
      simp only [bind, Except.bind]
      by_cases hok : Q.rows.all (fun v => I.rows.contains v) = true
      · simp only [hok, Bool.not_true, Bool.false_eq_true, if_false]
        have hsub : ∀ u ∈ Q.rows, u ∈ I.rows := by
          intro u hu; simpa using List.all_eq_true.1 hok u hu
        apply ih
        · have : ((t :: ts).filter fun i => !((List.range I.cardinal).filter
              fun i => Q.rows.contains (I.rows.getD i [])).contains i).length < (t :: ts).length := by
            rw [List.length_filter_lt_length_iff_exists]
            refine ⟨l, hlast, ?_⟩
            have : l ∈ (List.range I.cardinal).filter (fun i => Q.rows.contains (I.rows.getD i [])) := by
              rw [List.mem_filter, List.mem_range]
              exact ⟨hlc, List.contains_iff_mem.2 ((hmem p).2 ⟨RowLE.refl p, hm p hpm⟩)⟩
            rw [List.contains_iff_mem.2 this]; simp
          omega
        · intro i hi; exact htest i (List.mem_filter.1 hi).1
        · intro i hi hni u hu hu0
          by_cases hit : i ∈ t :: ts
          · have : I.rows.getD i [] ∈ Q.rows := by
              by_contra hc
              apply hni
              rw [List.mem_filter]
              refine ⟨hit, ?_⟩
              simp only [List.contains_eq_mem, Bool.not_eq_eq_eq_not, Bool.not_true,
                decide_eq_false_iff_not, List.mem_filter, List.mem_range, decide_eq_true_eq, not_and]
              exact fun _ => hc
            exact hsub u ((hmem u).2 ⟨hu.trans ((hmem _).1 this).1, hu0⟩)
          · exact hinv i hi hit u hu hu0
      · simp only [Bool.not_eq_true] at hok
        simp only [hok, Bool.not_false, if_true]
        refine ⟨false, rfl, ?_⟩
        simp only [Bool.false_eq_true, false_iff]
        intro hdc
        have : Q.rows.all (fun v => I.rows.contains v) = true := by
          rw [List.all_eq_true]
          intro u hu
          have := (hmem u).1 hu
          simpa using hdc p hpm u this.1 this.2
        rw [hok] at this; cases this

/-- C10. `is_downward_closed(m)` terminates and answers correctly on every set whose components are
at least `m` (in particular `m = 0` and nonnegative multi-indices). -/
theorem isDownwardClosed_spec (I : MI) (hI : I.WF) (hd : 0 < I.dim) (m : Int)
    (hm : ∀ v ∈ I.rows, ∀ x ∈ v, m ≤ x) :
    ∃ b, isDownwardClosed I m = .ok b ∧ (b = true ↔ DownClosed m I.rows) := by
  apply isDownwardClosedLoop_spec I hI hd m hm
  · simp
  · intro i hi; simpa using hi
  · intro i hi hni; exact absurd (List.mem_range.2 hi) hni

/-- C10. With a component below `m` in the last row, the query raises (the box is empty) instead of
answering. -/
theorem isDownwardClosed_below_raises (I : MI) (m : Int) (hne : I.rows ≠ [])
    (h : ∃ x ∈ I.rows.getLast hne, x < m) : isDownwardClosed I m = .error .typeError := by
  obtain ⟨x, hx, hxm⟩ := h
  have hlen : 0 < I.rows.length := List.length_pos_of_ne_nil hne
  have hb : boundedBy (I.rows.getLast hne) m = .error .typeError := by
    cases hb : boundedBy (I.rows.getLast hne) m with
    | ok P =>
      have := ((boundedBy_ok_iff _ _).1 ⟨P, hb⟩).2 x hx
      omega
    | error e =>
      unfold boundedBy at hb
      rw [productSet_error hb]
  unfold isDownwardClosed
  obtain ⟨n, hn⟩ : ∃ n, I.rows.length = n + 1 := ⟨I.rows.length - 1, by omega⟩
  have hr : List.range I.cardinal ≠ [] := by
    unfold MI.cardinal; rw [hn]; simp [List.range_succ]
  obtain ⟨t, ts, hts⟩ := List.exists_cons_of_ne_nil hr
  have hlast : (t :: ts).getLast (List.cons_ne_nil t ts) = n := by
    have : (t :: ts) = List.range (n + 1) := by rw [← hts]; unfold MI.cardinal; rw [hn]
    simp [this, List.range_succ]
  rw [hts]
  unfold MI.cardinal; rw [hn]
  unfold isDownwardClosedLoop
  have : I.rows.getD n [] = I.rows.getLast hne := by
    rw [List.getD_eq_getElem _ _ (by omega), List.getLast_eq_getElem]
    congr 1; omega
  rw [hlast, this]; dsimp only; rw [hb]; rfl

example : isDownwardClosed ⟨2, [[0, 0], [1, 0], [0, 1], [1, 1]]⟩ = .ok true := by decide
example : isDownwardClosed ⟨2, [[0, 0], [1, 1], [1, 0]]⟩ = .ok false := by decide

end Verif.MultiIndices
