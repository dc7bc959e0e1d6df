import Verif.Props.MultiIndicesSets
import Mathlib.Algebra.Order.BigOperators.Group.List
import Mathlib.Algebra.Order.Ring.Int

/-! # Properties C11, C12: index sets defined by an inequality -/

namespace Verif.MultiIndices

/-- The multi-indices of dimension `d` with nonnegative components satisfying `P`. -/
def Member (d : Nat) (P : List Int → Prop) (v : List Int) : Prop :=
  v.length = d ∧ (∀ x ∈ v, 0 ≤ x) ∧ P v

theorem sum_nonneg' {v : List Int} (h : ∀ x ∈ v, 0 ≤ x) : 0 ≤ v.sum := List.sum_nonneg h

/-- A nonzero nonnegative row has a nonnegative predecessor. -/
theorem exists_pred_nonneg {v : List Int} (h : ∀ x ∈ v, 0 ≤ x) (hs : 0 < v.sum) :
    ∃ k < v.length, ∀ x ∈ v.modify k (· + -1), 0 ≤ x := by
  have hne : List.replicate v.length 0 ≠ v := by
    intro e; rw [← e] at hs; simp at hs
  obtain ⟨k, hk, hle⟩ := (zero_rowLE v h).exists_pred hne
  exact ⟨k, hk, hle.ge_of_ge (by intro x hx; rw [List.eq_of_mem_replicate hx])⟩

/-- From a member of degree at least `t`, go down to degree exactly `t`. -/
theorem exists_below_degree (v : List Int) (h : ∀ x ∈ v, 0 ≤ x) (t : Nat) (ht : (t : Int) ≤ v.sum) :
    ∃ w, RowLE w v ∧ (∀ x ∈ w, 0 ≤ x) ∧ w.sum = t := by
  obtain ⟨n, hn⟩ : ∃ n : Nat, v.sum = t + n := ⟨(v.sum - t).toNat, by omega⟩
  clear ht
  induction n generalizing v with
  | zero => exact ⟨v, RowLE.refl v, h, by simpa using hn⟩
  | succ n ih =>
    obtain ⟨k, hk, hk0⟩ := exists_pred_nonneg h (by push_cast at hn; omega)
    obtain ⟨w, h1, h2, h3⟩ := ih (v.modify k (· + -1)) hk0 (by
      rw [sum_modify v k hk, hn]; push_cast; ring)
    exact ⟨w, h1.trans (modify_rowLE' v k (-1) (by omega)), h2, h3⟩

/-- The state of the loops after `t` rounds: all members of degree at most `t`. -/
structure Layer (d : Nat) (P : List Int → Prop) (t : Nat) (I : MI) : Prop where
  dim : I.dim = d
  nodup : I.rows.Nodup
  mem : ∀ v, v ∈ I.rows ↔ Member d P v ∧ v.sum ≤ t

theorem Layer.wf {d P t I} (h : Layer d P t I) : I.WF := by
  intro v hv; rw [h.dim]; exact ((h.mem v).1 hv).1.1

/-- The defining predicate goes down. -/
def Mono (d : Nat) (P : List Int → Prop) : Prop :=
  ∀ u v, RowLE u v → (∀ x ∈ u, 0 ≤ x) → v.length = d → P v → P u

theorem Layer.ne_nil {d P t I} (h : Layer d P t I) (h0 : P (List.replicate d 0)) : I.rows ≠ [] := by
  apply List.ne_nil_of_mem (a := List.replicate d 0)
  rw [h.mem]
  exact ⟨⟨by simp, by intro x hx; rw [List.eq_of_mem_replicate hx], h0⟩, by simp⟩

/-- Margin elements that satisfy `P` are the members of the next degree. -/
theorem Layer.margin {d P t I} (h : Layer d P t I) (hd : 0 < d) (h0 : P (List.replicate d 0))
    (hm : Mono d P) (v : List Int) :
    (v ∈ (getMargin I).rows ∧ P v) ↔ Member d P v ∧ v.sum = t + 1 := by
  rw [mem_getMargin I h.wf (h.ne_nil h0) (by rw [h.dim]; exact hd)]
  constructor
  · rintro ⟨⟨h1, u, hu, k, hk, rfl⟩, hP⟩
    have hu' := (h.mem u).1 hu
    have hmem : Member d P (u.modify k (· + 1)) :=
      ⟨by simp [hu'.1.1], (modify_rowLE u k 1 (by omega)).ge_of_ge hu'.1.2.1, hP⟩
    refine ⟨hmem, ?_⟩
    rw [h.dim] at hk
    have hs := sum_modify u k (by rw [hu'.1.1]; exact hk) 1
    rw [h.mem] at h1
    have : ¬ (u.modify k (· + 1)).sum ≤ t := fun hle => h1 ⟨hmem, hle⟩
    have := hu'.2
    omega
  · rintro ⟨hmem, hs⟩
    refine ⟨⟨fun hc => ?_, ?_⟩, hmem.2.2⟩
    · have := ((h.mem v).1 hc).2; omega
    · obtain ⟨k, hk, hk0⟩ := exists_pred_nonneg hmem.2.1 (by omega)
      refine ⟨v.modify k (· + -1), ?_, k, by rw [h.dim, ← hmem.1]; exact hk, (modify_modify v k 1).symm⟩
      rw [h.mem]
      refine ⟨⟨by simp [hmem.1], hk0, ?_⟩, ?_⟩
      · exact hm _ v (modify_rowLE' v k (-1) (by omega)) hk0 hmem.1 hmem.2.2
      · rw [sum_modify v k hk]; omega

/-- Adding the qualifying margin elements gives the next layer. -/
theorem Layer.step {d P t I} (h : Layer d P t I) (h0 : P (List.replicate d 0))
    (new : List (List Int)) (hnew : ∀ v, v ∈ new ↔ Member d P v ∧ v.sum = t + 1) :
    Layer d P (t + 1) (addIndices I ⟨I.dim, new⟩) := by
  have hs := addIndices_spec I ⟨I.dim, new⟩ (h.ne_nil h0)
  refine ⟨by rw [hs.2.2.1, h.dim], hs.2.1, fun v => ?_⟩
  rw [hs.1, h.mem, hnew]
  push_cast
  constructor
  · rintro (⟨h1, h2⟩ | ⟨h1, h2⟩)
    · exact ⟨h1, by omega⟩
    · exact ⟨h1, by omega⟩
  · rintro ⟨h1, h2⟩
    by_cases hle : v.sum ≤ t
    · exact .inl ⟨h1, hle⟩
    · exact .inr ⟨h1, by omega⟩

theorem layer_zero (d : Nat) (P : List Int → Prop) (h0 : P (List.replicate d 0)) :
    Layer d P 0 (zeroMI d) := by
  refine ⟨rfl, by simp [zeroMI], fun v => ?_⟩
  simp only [zeroMI, List.mem_singleton]
  constructor
  · rintro rfl
    exact ⟨⟨by simp, by intro x hx; rw [List.eq_of_mem_replicate hx], h0⟩, by simp⟩
  · rintro ⟨⟨h1, h2, _⟩, h3⟩
    by_contra hne
    obtain ⟨k, hk, hle⟩ := (zero_rowLE v h2).exists_pred (by rw [h1]; exact Ne.symm hne)
    have := hle.sum_le
    rw [sum_modify v k hk] at this
    simp at this h3
    omega

/-! ## C11: total degree sets -/

/-- C11. `with_bounded_norm(d, 1, m)` is exactly the set of multi-indices of dimension `d` with sum at
most `m`, each once. -/
theorem withBoundedNorm_one_spec (srt : List (List Int) → List (List Int)) (fuel d m : Nat)
    (hd : 0 < d) :
    ∃ I, withBoundedNorm srt fuel d (.fin 1) m = .ok I ∧ I.dim = d ∧ I.rows.Nodup ∧
      ∀ v, v ∈ I.rows ↔ v.length = d ∧ (∀ x ∈ v, 0 ≤ x) ∧ v.sum ≤ m := by
  have key : ∀ m : Nat, Layer d (fun _ => True) m
      ((List.range m).foldl (fun I _ => addIndices I (getMargin I)) (zeroMI d)) := by
    intro m
    induction m with
    | zero => exact layer_zero d _ trivial
    | succ m ih =>
      rw [List.range_succ, List.foldl_append]
      simp only [List.foldl_cons, List.foldl_nil]
      set J := (List.range m).foldl (fun I _ => addIndices I (getMargin I)) (zeroMI d) with hJ
      have hM := (getMargin_rows J ih.wf (ih.ne_nil trivial) (by rw [ih.dim]; exact hd)).2
      have e : getMargin J = ⟨J.dim, (getMargin J).rows⟩ := by rw [← hM]
      rw [e]
      apply ih.step trivial
      intro v
      have := ih.margin hd trivial (fun _ _ _ _ _ _ => trivial) v
      simpa using this
  refine ⟨_, rfl, (key m).dim, (key m).nodup, fun v => ?_⟩
  rw [(key m).mem]
  unfold Member
  tauto

example : withBoundedNorm id 0 2 (.fin 1) 2
    = .ok ⟨2, [[0, 0], [1, 0], [0, 1], [2, 0], [1, 1], [0, 2]]⟩ := by decide

/-! ## C12: growth loops -/

theorem map_filter_positions (M : List (List Int)) (P : List Int → Bool) :
    ((List.range M.length).filter fun i => P (M.getD i [])).map (fun i => M.getD i []) = M.filter P :=
  map_filter_range M [] P

/-- With the test `len(k) == 0` the loop ends, for every sort, with exactly the members; `B` bounds
the degree of the members, and `B + 1` rounds are enough. -/
theorem growLoop_stopEmpty (pre P : List Int → Bool) (d B : Nat) (hd : 0 < d)
    (h0 : pre (List.replicate d 0) = true ∧ P (List.replicate d 0) = true)
    (hm : Mono d (fun v => pre v = true ∧ P v = true))
    (hB : ∀ v, Member d (fun v => pre v = true ∧ P v = true) v → v.sum ≤ B)
    (srt : List (List Int) → List (List Int)) (hsrt : ∀ l, (srt l).Perm l)
    (fuel t : Nat) (hf : B + 1 ≤ fuel + t) (I : MI)
    (hI : Layer d (fun v => pre v = true ∧ P v = true) t I) (ht : t ≤ B) :
    ∃ J, growLoop pre stopEmpty P srt fuel I = .ok J ∧ J.dim = d ∧ J.rows.Nodup ∧
      ∀ v, v ∈ J.rows ↔ Member d (fun v => pre v = true ∧ P v = true) v := by
  induction fuel generalizing t I with
  | zero => omega
  | succ fuel ih =>
    unfold growLoop
    dsimp only
    set M := (getMargin I).rows.filter pre with hMdef
    have hnew : ∀ v, v ∈ M.filter P ↔
        Member d (fun v => pre v = true ∧ P v = true) v ∧ v.sum = t + 1 := by
      intro v
      rw [← hI.margin hd h0 hm, hMdef, List.mem_filter, List.mem_filter]
      tauto
    have hmap := map_filter_positions M P
    set k := (List.range M.length).filter fun i => P (M.getD i []) with hk
    by_cases hstop : stopEmpty k = true
    · rw [if_pos hstop]
      refine ⟨I, rfl, hI.dim, hI.nodup, fun v => ?_⟩
      rw [hI.mem]
      refine ⟨fun h => h.1, fun h => ⟨h, ?_⟩⟩
      by_contra hgt
      obtain ⟨w, hw, hw0, hws⟩ := exists_below_degree v h.2.1 (t + 1) (by push_cast; omega)
      have : w ∈ M.filter P := by
        rw [hnew]
        exact ⟨⟨by rw [hw.length_eq, h.1], hw0, hm w v hw hw0 h.1 h.2.2⟩, by simpa using hws⟩
      rw [← hmap] at this
      unfold stopEmpty at hstop
      rw [List.isEmpty_iff] at hstop
      rw [hstop] at this
      simp at this
    · rw [if_neg hstop]
      have hl := hI.step h0 (srt (k.map fun i => M.getD i [])) (fun v => by
        rw [(hsrt _).mem_iff, hmap, hnew])
      refine ih (t + 1) (by omega) _ hl ?_
      by_contra hgt
      apply hstop
      unfold stopEmpty
      rw [List.isEmpty_iff]
      have : M.filter P = [] := by
        rw [List.eq_nil_iff_forall_not_mem]
        intro v hv
        rw [hnew] at hv
        have := hB v hv.1
        omega
      rw [← hmap] at this
      simpa using this

/-- With the test `np.all(np.logical_not(k))` the loop also ends, but it is complete only up to one
multi-index: every member that is missing lies above one and the same multi-index. -/
theorem growLoop_stopAllZero (pre P : List Int → Bool) (d B : Nat) (hd : 0 < d)
    (h0 : pre (List.replicate d 0) = true ∧ P (List.replicate d 0) = true)
    (hm : Mono d (fun v => pre v = true ∧ P v = true))
    (hB : ∀ v, Member d (fun v => pre v = true ∧ P v = true) v → v.sum ≤ B)
    (srt : List (List Int) → List (List Int)) (hsrt : ∀ l, (srt l).Perm l)
    (fuel t : Nat) (hf : B + 1 ≤ fuel + t) (I : MI)
    (hI : Layer d (fun v => pre v = true ∧ P v = true) t I) (ht : t ≤ B) :
    ∃ J, growLoop pre stopAllZero P srt fuel I = .ok J ∧ J.dim = d ∧ J.rows.Nodup ∧
      (∀ v ∈ J.rows, Member d (fun v => pre v = true ∧ P v = true) v) ∧ DownClosed 0 J.rows ∧
      ∃ w, ∀ v, Member d (fun v => pre v = true ∧ P v = true) v → v ∉ J.rows → RowLE w v := by
  induction fuel generalizing t I with
  | zero => omega
  | succ fuel ih =>
    unfold growLoop
    dsimp only
    set M := (getMargin I).rows.filter pre with hMdef
    have hnew : ∀ v, v ∈ M.filter P ↔
        Member d (fun v => pre v = true ∧ P v = true) v ∧ v.sum = t + 1 := by
      intro v
      rw [← hI.margin hd h0 hm, hMdef, List.mem_filter, List.mem_filter]
      tauto
    have hmap := map_filter_positions M P
    set k := (List.range M.length).filter fun i => P (M.getD i []) with hk
    by_cases hstop : stopAllZero k = true
    · rw [if_pos hstop]
      refine ⟨I, rfl, hI.dim, hI.nodup, fun v hv => ((hI.mem v).1 hv).1, ?_, M.getD 0 [], ?_⟩
      · intro v hv u hu hu0
        have hv' := (hI.mem v).1 hv
        rw [hI.mem]
        exact ⟨⟨by rw [hu.length_eq, hv'.1.1], hu0, hm u v hu hu0 hv'.1.1 hv'.1.2.2⟩,
          le_trans hu.sum_le hv'.2⟩
      · intro v h hvI
        have hgt : ¬ v.sum ≤ t := fun hle => hvI ((hI.mem v).2 ⟨h, hle⟩)
        obtain ⟨w, hw, hw0, hws⟩ := exists_below_degree v h.2.1 (t + 1) (by push_cast; omega)
        have hwM : w ∈ M.filter P := by
          rw [hnew]
          exact ⟨⟨by rw [hw.length_eq, h.1], hw0, hm w v hw hw0 h.1 h.2.2⟩, by simpa using hws⟩
        rw [← hmap] at hwM
        obtain ⟨i, hi, rfl⟩ := List.mem_map.1 hwM
        have : i = 0 := by
          unfold stopAllZero at hstop
          simpa using List.all_eq_true.1 hstop i hi
        rw [this] at hw; exact hw
    · rw [if_neg hstop]
      have hl := hI.step h0 (srt (k.map fun i => M.getD i [])) (fun v => by
        rw [(hsrt _).mem_iff, hmap, hnew])
      refine ih (t + 1) (by omega) _ hl ?_
      by_contra hgt
      apply hstop
      have : M.filter P = [] := by
        rw [List.eq_nil_iff_forall_not_mem]
        intro v hv
        rw [hnew] at hv
        have := hB v hv.1
        omega
      rw [← hmap] at this
      have : k = [] := by simpa using this
      rw [this]; rfl

/-! ### hyperbolic cross -/

theorem prod_succ_pos {v : List Int} (h : ∀ x ∈ v, 0 ≤ x) : 1 ≤ (v.map (· + 1)).prod := by
  induction v with
  | nil => simp
  | cons a v ih =>
    simp only [List.forall_mem_cons] at h
    simp only [List.map_cons, List.prod_cons]
    nlinarith [ih h.2]

theorem prod_succ_mono {u v : List Int} (h : RowLE u v) (hu : ∀ x ∈ u, 0 ≤ x) :
    (u.map (· + 1)).prod ≤ (v.map (· + 1)).prod := by
  unfold RowLE at h
  induction h with
  | nil => simp
  | cons h1 h2 ih =>
    simp only [List.forall_mem_cons] at hu
    simp only [List.map_cons, List.prod_cons]
    have := ih hu.2
    have := prod_succ_pos hu.2
    apply mul_le_mul <;> omega

theorem sum_lt_prod_succ {v : List Int} (h : ∀ x ∈ v, 0 ≤ x) : v.sum + 1 ≤ (v.map (· + 1)).prod := by
  induction v with
  | nil => simp
  | cons a v ih =>
    simp only [List.forall_mem_cons] at h
    simp only [List.map_cons, List.prod_cons, List.sum_cons]
    have h1 := ih h.2
    have h2 := sum_nonneg' h.2
    nlinarith [h.1]

/-- C12. `hyperbolic_cross_set(d, p)` ends after at most `p + 1` rounds, for every sort, with exactly
the multi-indices such that `Π (i_k + 1) ≤ p + 1`, each once. -/
theorem hyperbolicCrossSet_spec (srt : List (List Int) → List (List Int))
    (hsrt : ∀ l, (srt l).Perm l) (d p fuel : Nat) (hd : 0 < d) (hf : p + 1 ≤ fuel) :
    ∃ J, hyperbolicCrossSet srt fuel d p = .ok J ∧ J.dim = d ∧ J.rows.Nodup ∧
      ∀ v, v ∈ J.rows ↔
        v.length = d ∧ (∀ x ∈ v, 0 ≤ x) ∧ (v.map (· + 1)).prod ≤ (p : Int) + 1 := by
  have h0 : noPre (List.replicate d 0) = true ∧
      decide (((List.replicate d (0 : Int)).map (· + 1)).prod ≤ (p : Int) + 1) = true := by
    simp [noPre]
  obtain ⟨J, h1, h2, h3, h4⟩ := growLoop_stopEmpty noPre
    (fun r => decide ((r.map (· + 1)).prod ≤ (p : Int) + 1)) d p hd h0
    (fun u v huv hu _ hv => ⟨rfl, by
      have := prod_succ_mono huv hu
      simp only [decide_eq_true_eq] at hv ⊢; omega⟩)
    (fun v hv => by
      have := sum_lt_prod_succ hv.2.1
      have := hv.2.2.2
      simp only [decide_eq_true_eq] at this; omega)
    srt hsrt fuel 0 (by omega) (zeroMI d) (layer_zero d _ h0) (by omega)
  refine ⟨J, h1, h2, h3, fun v => ?_⟩
  rw [h4]
  simp [Member, noPre]

example : (hyperbolicCrossSet id 4 2 2).map (·.rows)
    = .ok [[0, 0], [1, 0], [0, 1], [2, 0], [0, 2]] := by decide

/-! ### `with_bounded_norm`, `p ≥ 2` -/

theorem normPow_mono {u v : List Int} (p : Nat) (h : RowLE u v) (hu : ∀ x ∈ u, 0 ≤ x) :
    normPow p u ≤ normPow p v := by
  unfold RowLE at h
  unfold normPow
  induction h with
  | nil => simp
  | cons h1 h2 ih =>
    simp only [List.forall_mem_cons] at hu
    simp only [List.map_cons, List.sum_cons]
    have := ih hu.2
    have := pow_le_pow_left₀ hu.1 h1 p
    omega

theorem sum_le_normPow {v : List Int} (p : Nat) (hp : 0 < p) (h : ∀ x ∈ v, 0 ≤ x) :
    v.sum ≤ normPow p v := by
  unfold normPow
  induction v with
  | nil => simp
  | cons a v ih =>
    simp only [List.forall_mem_cons] at h
    simp only [List.map_cons, List.sum_cons]
    have h1 := ih h.2
    have : a ≤ a ^ p := by
      rcases eq_or_lt_of_le h.1 with h0 | h0
      · rw [← h0]; positivity
      · exact le_self_pow₀ (by omega) (by omega)
    omega

/-- C12 (partial). `with_bounded_norm(d, p, m)`, `p ≥ 2`, ends with a duplicate-free downward closed
set of multi-indices of p-norm at most `m`. Completeness is missing (it fails, see
`withBoundedNorm_incomplete`): all the multi-indices of p-norm at most `m` that are not returned lie
above one single multi-index. -/
theorem withBoundedNorm_partial (srt : List (List Int) → List (List Int))
    (hsrt : ∀ l, (srt l).Perm l) (d p m fuel : Nat) (hd : 0 < d) (hp : 2 ≤ p) (hf : m ^ p + 1 ≤ fuel) :
    ∃ J, withBoundedNorm srt fuel d (.fin p) m = .ok J ∧ J.dim = d ∧ J.rows.Nodup ∧
      (∀ v ∈ J.rows, v.length = d ∧ (∀ x ∈ v, 0 ≤ x) ∧ (v.map (· ^ p)).sum ≤ (m : Int) ^ p) ∧
      DownClosed 0 J.rows ∧
      ∃ w, ∀ v : List Int, v.length = d → (∀ x ∈ v, 0 ≤ x) → (v.map (· ^ p)).sum ≤ (m : Int) ^ p →
        v ∉ J.rows → RowLE w v := by
  have h0 : noPre (List.replicate d 0) = true ∧
      decide (normPow p (List.replicate d (0 : Int)) ≤ (m : Int) ^ p) = true := by
    simp only [noPre, true_and, decide_eq_true_eq, normPow, List.map_replicate, List.sum_replicate]
    rw [zero_pow (by omega)]; simp
  obtain ⟨J, h1, h2, h3, h4, h5, w, hw⟩ := growLoop_stopAllZero noPre
    (fun r => decide (normPow p r ≤ (m : Int) ^ p)) d (m ^ p) hd h0
    (fun u v huv hu _ hv => ⟨rfl, by
      have := normPow_mono p huv hu
      simp only [decide_eq_true_eq] at hv ⊢; omega⟩)
    (fun v hv => by
      have := sum_le_normPow p (by omega) hv.2.1
      have := hv.2.2.2
      simp only [decide_eq_true_eq] at this; push_cast; omega)
    srt hsrt fuel 0 (by omega) (zeroMI d) (layer_zero d _ h0) (by omega)
  refine ⟨J, ?_, h2, h3, ?_, h5, w, ?_⟩
  · unfold withBoundedNorm
    split
    · rename_i h; cases h
    · rename_i h; cases h; omega
    · rename_i h; cases h; exact h1
  · intro v hv
    have := h4 v hv
    exact ⟨this.1, this.2.1, of_decide_eq_true this.2.2.2⟩
  · intro v hv1 hv2 hv3 hv4
    exact hw v ⟨hv1, hv2, rfl, decide_eq_true hv3⟩ hv4

/-- C12 finding: in dimension one, `with_bounded_norm(1, 2, m)` returns only the zero index for every
`m`, whereas `1` has norm at most `m` as soon as `m ≥ 1`. -/
theorem withBoundedNorm_incomplete (srt : List (List Int) → List (List Int)) (m fuel : Nat) :
    withBoundedNorm srt (fuel + 1) 1 (.fin 2) m = .ok ⟨1, [[0]]⟩ := by
  have e : (getMargin (zeroMI 1)).rows.filter noPre = [[1]] := by decide
  unfold withBoundedNorm growLoop
  simp only [e]
  have : stopAllZero ((List.range [[(1 : Int)]].length).filter fun i =>
      decide (normPow 2 ([[(1 : Int)]].getD i []) ≤ (m : Int) ^ 2)) = true := by
    unfold stopAllZero
    rw [List.all_eq_true]
    intro i hi
    have := (List.mem_filter.1 hi).1
    simp at this
    simp [this]
  rw [if_pos this]; rfl

/-- C12 finding: `with_bounded_norm(d, inf, m)` always raises. -/
theorem withBoundedNorm_inf_raises (srt : List (List Int) → List (List Int)) (fuel d m : Nat) :
    withBoundedNorm srt fuel d .inf m = .error .indexError := rfl

/-- C12 finding: `weighted_hyperbolic_cross_set(2, 2, [1, 3])` returns only the zero index; the
multi-index (1, 0) satisfies `2^1 * 1^3 ≤ 3` and is missing. -/
theorem weightedHyperbolicCrossSet_incomplete (fuel : Nat) :
    weightedHyperbolicCrossSet id (fuel + 1) 2 2 [1, 3] = .ok ⟨2, [[0, 0]]⟩ := by
  have e : (getMargin (zeroMI 2)).rows.filter noPre = [[1, 0], [0, 1]] := by decide
  unfold weightedHyperbolicCrossSet growLoop
  simp only [e]
  rw [if_pos (by decide)]; rfl

/-- C12 finding: `low_order_interactions(2, 1, 2)` misses (1, 1). -/
theorem lowOrderInteractions_incomplete :
    lowOrderInteractions id 10 2 1 2 = .ok ⟨2, [[0, 0], [1, 0], [0, 1]]⟩ := by decide

/-! ### `low_order_interactions` and weighted hyperbolic cross: partial completeness -/

theorem countP_mono {u v : List Int} (h : RowLE u v) (hu : ∀ x ∈ u, 0 ≤ x) :
    u.countP (· ≠ 0) ≤ v.countP (· ≠ 0) := by
  unfold RowLE at h
  induction h with
  | nil => simp
  | @cons a b l l' h1 h2 ih =>
    simp only [List.forall_mem_cons] at hu
    have := ih hu.2
    simp only [List.countP_cons]
    by_cases ha : a = 0
    · subst ha
      simp only [ne_eq, not_true_eq_false, decide_false, Bool.false_eq_true, if_false]
      exact le_trans this (Nat.le_add_right _ _)
    · have hb : b ≠ 0 := by have := hu.1; omega
      simp only [ne_eq, ha, hb, not_false_eq_true, decide_true, if_true]
      exact Nat.add_le_add_right this 1

theorem sum_le_of_le {v : List Int} {p : Int} (h : ∀ x ∈ v, x ≤ p) : v.sum ≤ v.length * p := by
  induction v with
  | nil => simp
  | cons a v ih =>
    simp only [List.forall_mem_cons] at h
    have := ih h.2
    simp only [List.sum_cons, List.length_cons]
    push_cast
    nlinarith [h.1]

theorem all_le_mono {u v : List Int} {p : Int} (h : RowLE u v) (hv : ∀ x ∈ v, x ≤ p) :
    ∀ x ∈ u, x ≤ p := by
  unfold RowLE at h
  induction h with
  | nil => simp
  | cons h1 _ ih =>
    simp only [List.forall_mem_cons] at hv ⊢
    exact ⟨le_trans h1 hv.1, ih hv.2⟩

/-- C12 (partial). `low_order_interactions(d, p, m)` ends with a duplicate-free downward closed set of
multi-indices with components at most `p` and at most `m` nonzero components; those missing lie above
one single multi-index (completeness fails, see `lowOrderInteractions_incomplete`). -/
theorem lowOrderInteractions_partial (srt : List (List Int) → List (List Int))
    (hsrt : ∀ l, (srt l).Perm l) (d p m fuel : Nat) (hd : 0 < d) (hf : d * p + 1 ≤ fuel) :
    ∃ J, lowOrderInteractions srt fuel d p m = .ok J ∧ J.dim = d ∧ J.rows.Nodup ∧
      (∀ v ∈ J.rows, v.length = d ∧ (∀ x ∈ v, 0 ≤ x ∧ x ≤ (p : Int)) ∧ v.countP (· ≠ 0) ≤ m) ∧
      DownClosed 0 J.rows ∧
      ∃ w, ∀ v : List Int, v.length = d → (∀ x ∈ v, 0 ≤ x ∧ x ≤ (p : Int)) → v.countP (· ≠ 0) ≤ m →
        v ∉ J.rows → RowLE w v := by
  have h0 : ((List.replicate d (0 : Int)).all fun x => decide (x ≤ (p : Int))) = true ∧
      decide ((List.replicate d (0 : Int)).countP (· ≠ 0) ≤ m) = true := by
    refine ⟨by rw [List.all_eq_true]; intro x hx; rw [List.eq_of_mem_replicate hx]; simp, ?_⟩
    rw [decide_eq_true_eq, List.countP_eq_zero.2]
    · omega
    · intro x hx; rw [List.eq_of_mem_replicate hx]; simp
  obtain ⟨J, h1, h2, h3, h4, h5, w, hw⟩ := growLoop_stopAllZero
    (fun r => r.all fun x => decide (x ≤ (p : Int)))
    (fun r => decide (r.countP (· ≠ 0) ≤ m)) d (d * p) hd h0
    (fun u v huv hu _ hv => by
      simp only [List.all_eq_true, decide_eq_true_eq] at hv ⊢
      exact ⟨all_le_mono huv hv.1, le_trans (countP_mono huv hu) hv.2⟩)
    (fun v hv => by
      have h := hv.2.2.1
      simp only [List.all_eq_true, decide_eq_true_eq] at h
      have := sum_le_of_le h
      rw [hv.1] at this
      push_cast; exact this)
    srt hsrt fuel 0 (by omega) (zeroMI d) (layer_zero d _ h0) (by omega)
  refine ⟨J, h1, h2, h3, ?_, h5, w, ?_⟩
  · intro v hv
    have := h4 v hv
    simp only [Member, List.all_eq_true, decide_eq_true_eq] at this
    exact ⟨this.1, fun x hx => ⟨this.2.1 x hx, this.2.2.1 x hx⟩, this.2.2.2⟩
  · intro v hv1 hv2 hv3 hv4
    refine hw v ⟨hv1, fun x hx => (hv2 x hx).1, ?_⟩ hv4
    simp only [List.all_eq_true, decide_eq_true_eq]
    exact ⟨fun x hx => (hv2 x hx).2, hv3⟩

/-! ### `with_bounded_weighted_norm` -/

theorem zipWith_pow_nonneg {p : Nat} {v : List Int} (w : List Nat) (hv : ∀ x ∈ v, 0 ≤ x) :
    0 ≤ (List.zipWith (fun x (e : Nat) => (x * (e : Int)) ^ p) v w).sum := by
  induction v generalizing w with
  | nil => simp
  | cons b v ihv =>
    cases w with
    | nil => simp
    | cons f w =>
      simp only [List.forall_mem_cons] at hv
      simp only [List.zipWith_cons_cons, List.sum_cons]
      have h1 := ihv w hv.2
      have h2 : (0 : Int) ≤ (b * (f : Int)) ^ p := pow_nonneg (mul_nonneg hv.1 (by omega)) _
      omega

theorem forall₂_nonneg' {v : List Int} {w : List Nat} {f : Nat → Int}
    (h : List.Forall₂ (fun x (e : Nat) => 0 ≤ x ∧ x < f e) v w) : ∀ x ∈ v, 0 ≤ x := by
  induction h with
  | nil => simp
  | cons h _ ih => simp only [List.forall_mem_cons]; exact ⟨h.1, ih⟩

theorem weighted_box {p m : Nat} (hp : 0 < p) {v : List Int} {w : List Nat}
    (hlen : v.length = w.length) (hv : ∀ x ∈ v, 0 ≤ x) (hw : ∀ e ∈ w, 0 < e)
    (h : (List.zipWith (fun x (e : Nat) => (x * (e : Int)) ^ p) v w).sum ≤ (m : Int) ^ p) :
    List.Forall₂ (fun x (e : Nat) => 0 ≤ x ∧ x < ((m / e : Nat) : Int) + 1) v w := by
  induction v generalizing w with
  | nil => cases w with
    | nil => exact .nil
    | cons => simp at hlen
  | cons a v ih =>
    cases w with
    | nil => simp at hlen
    | cons e w =>
      simp only [List.length_cons, Nat.add_right_cancel_iff] at hlen
      simp only [List.forall_mem_cons] at hv hw
      simp only [List.zipWith_cons_cons, List.sum_cons] at h
      have hnn := zipWith_pow_nonneg (p := p) w hv.2
      have hae : 0 ≤ a * (e : Int) := mul_nonneg hv.1 (by omega)
      have h1 : (a * (e : Int)) ^ p ≤ (m : Int) ^ p := by omega
      have h2 : a * (e : Int) ≤ m := by
        by_contra hc
        push Not at hc
        have := pow_lt_pow_left₀ hc (by omega) (by omega : p ≠ 0)
        omega
      have h3 : (0 : Int) ≤ (a * (e : Int)) ^ p := pow_nonneg hae _
      refine .cons ⟨hv.1, ?_⟩ (ih hlen hv.2 hw.2 (by omega))
      have he : (0 : Int) < e := by exact_mod_cast hw.1
      have : a ≤ (m : Int) / e := Int.le_ediv_of_mul_le he h2
      have : ((m / e : Nat) : Int) = (m : Int) / e := by simp
      omega

/-- C12. `with_bounded_weighted_norm(d, p, m, w)` (integer `p ≥ 1`, positive integer weights) contains
exactly the multi-indices of weighted p-norm at most `m`, each once, for every sort. -/
theorem withBoundedWeightedNorm_spec (srt : List (List Int) → List (List Int))
    (hsrt : ∀ l, (srt l).Perm l) (p m : Nat) (w : List Nat) (hp : 0 < p) (hw : ∀ e ∈ w, 0 < e)
    (hne : w ≠ []) :
    ∃ J, withBoundedWeightedNorm srt w.length p m w = .ok J ∧ J.rows.Nodup ∧ ∀ v, v ∈ J.rows ↔
      v.length = w.length ∧ (∀ x ∈ v, 0 ≤ x) ∧
        (List.zipWith (fun x (e : Nat) => (x * (e : Int)) ^ p) v w).sum ≤ (m : Int) ^ p := by
  have hcols : ∀ M ∈ w.map (fun x : Nat => ofColumn (arange 0 ((m / x : Nat) + 1))), M.rows ≠ [] := by
    intro M hM
    obtain ⟨x, _, rfl⟩ := List.mem_map.1 hM
    simp only [ofColumn, ne_eq, List.map_eq_nil_iff]
    apply List.ne_nil_of_mem (a := 0)
    rw [mem_arange]
    have : (0 : Int) ≤ ((m / x : Nat) : Int) := Int.natCast_nonneg _
    exact ⟨le_rfl, by omega⟩
  obtain ⟨Q, hQ, _⟩ := (productSet_ok_iff
    (w.map fun x : Nat => ofColumn (arange 0 ((m / x : Nat) + 1))) _).2 ⟨by simpa using hne, hcols, rfl⟩
  have hQ' : productSet ((w.map fun x : Nat => arange 0 ((m / x : Nat) + 1)).map ofColumn) = .ok Q := by
    rw [List.map_map]; exact hQ
  have hmem : ∀ v, v ∈ Q.rows ↔
      List.Forall₂ (fun x (e : Nat) => 0 ≤ x ∧ x < ((m / e : Nat) : Int) + 1) v w := by
    intro v
    rw [mem_productSet_columns hQ', List.forall₂_map_right_iff]
    constructor <;> intro hh <;> refine hh.imp ?_ <;> intro a b hab
    · rwa [mem_arange] at hab
    · rwa [mem_arange]
  have hnd : Q.rows.Nodup := by
    refine productSet_nodup hQ' ?_ ?_
    · intro M hM
      obtain ⟨l, _, rfl⟩ := List.mem_map.1 hM
      intro r hr
      simp only [ofColumn, List.mem_map] at hr ⊢
      obtain ⟨x, _, rfl⟩ := hr; rfl
    · intro M hM
      obtain ⟨l, hl, rfl⟩ := List.mem_map.1 hM
      obtain ⟨x, _, rfl⟩ := List.mem_map.1 hl
      exact List.Nodup.map (fun a b hab => by simpa using hab) (nodup_arange _ _)
  unfold withBoundedWeightedNorm
  rw [hQ]
  have hrw := map_filter_positions Q.rows (fun r =>
      decide (((List.zipWith (fun x (e : Nat) => (x * (e : Int)) ^ p) r w).sum) ≤ (m : Int) ^ p))
  refine ⟨⟨Q.dim, srt (Q.rows.filter (fun r =>
      decide (((List.zipWith (fun x (e : Nat) => (x * (e : Int)) ^ p) r w).sum) ≤ (m : Int) ^ p)))⟩, ?_, ?_, ?_⟩
  · simp only [ne_eq, not_true_eq_false, if_false, bind, Except.bind, pure, Except.pure]
    simp only [MI.cardinal, hrw]
  · exact ((hsrt _).nodup_iff).2 (hnd.filter _)
  · intro v
    rw [(hsrt _).mem_iff, List.mem_filter, hmem, decide_eq_true_eq]
    constructor
    · rintro ⟨h1, h2⟩
      exact ⟨h1.length_eq, forall₂_nonneg' h1, h2⟩
    · rintro ⟨h1, h2, h3⟩
      exact ⟨weighted_box hp h1 h2 hw h3, h3⟩

example : (withBoundedWeightedNorm id 2 2 2 [1, 1]).map (·.rows)
    = .ok [[0, 0], [1, 0], [2, 0], [0, 1], [1, 1], [0, 2]] := by decide

end Verif.MultiIndices
