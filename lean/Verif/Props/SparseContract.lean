import Verif.Props.Sparse

/-!
# Properties of `SparseTensor`: contractions (C28)
-/

namespace Verif.Sparse

open Verif.Arr Verif.MultiIndices Finset

variable {R : Type}

/-- The linear functional of a list of entries. -/
def wsum [CommSemiring R] (rows : List (List Nat)) (data : List R) (g : List Nat → R) : R :=
  ((rows.zip data).map (fun p => p.2 * g p.1)).sum

theorem sum_filter_ne_zero [CommSemiring R] [DecidableEq R] (l : List (List Nat × R)) (g : List Nat → R) :
    ((l.filter (fun q => q.2 ≠ 0)).map (fun q => q.2 * g q.1)).sum = (l.map (fun q => q.2 * g q.1)).sum := by
  induction l with
  | nil => rfl
  | cons q l ih =>
    by_cases h : q.2 = 0
    · rw [List.filter_cons_of_neg (by simpa using h), ih]; simp [h]
    · rw [List.filter_cons_of_pos (by simpa using h), List.map_cons, List.sum_cons, ih, List.map_cons, List.sum_cons]

theorem sum_ite_mem [AddCommMonoid R] (u : List (List Nat)) (hu : u.Nodup) (q : List Nat) (hq : q ∈ u) (c : R) :
    (u.map (fun r => if r = q then c else 0)).sum = c := by
  induction u with
  | nil => simp at hq
  | cons a u ih =>
    rw [List.nodup_cons] at hu
    rw [List.map_cons, List.sum_cons]
    by_cases h : a = q
    · subst h
      rw [if_pos rfl]
      have hz : (u.map (fun r => if r = a then c else 0)).sum = 0 := by
        apply List.sum_eq_zero
        intro x hx
        obtain ⟨r, hr, rfl⟩ := List.mem_map.1 hx
        rw [if_neg]
        rintro rfl; exact hu.1 hr
      rw [hz, add_zero]
    · rw [if_neg h, zero_add]
      exact ih hu.2 ((List.mem_cons.1 hq).resolve_left (fun h' => h h'.symm))

theorem zip_map_self {α β : Type} (u : List α) (f : α → β) : u.zip (u.map f) = u.map (fun r => (r, f r)) := by
  induction u with
  | nil => rfl
  | cons a u ih => simp [ih]

/-- Grouping equal rows keeps the functional. -/
theorem group_sum [CommSemiring R] (l : List (List Nat × R)) (u : List (List Nat)) (hu : u.Nodup)
    (hmem : ∀ q ∈ l, q.1 ∈ u) (g : List Nat → R) :
    (u.map (fun r => ((l.filter (fun q => q.1 = r)).map Prod.snd).sum * g r)).sum = (l.map (fun q => q.2 * g q.1)).sum := by
  induction l with
  | nil => simp
  | cons q l ih =>
    have ih := ih (fun p hp => hmem p (by simp [hp]))
    rw [List.map_cons, List.sum_cons, ← ih]
    have : ∀ r, (((q :: l).filter (fun q => q.1 = r)).map Prod.snd).sum * g r =
        (if r = q.1 then q.2 * g q.1 else 0) + ((l.filter (fun q => q.1 = r)).map Prod.snd).sum * g r := by
      intro r
      by_cases h : q.1 = r
      · subst h
        rw [List.filter_cons_of_pos (by simp)]
        simp [add_mul]
      · rw [List.filter_cons_of_neg (by simpa using h), if_neg (fun h' => h h'.symm), zero_add]
    simp only [this]
    rw [List.sum_map_add]
    congr 1
    exact sum_ite_mem u hu q.1 (hmem q (by simp)) _

/-- One contraction step. Either the step succeeds (`len` equal), and then the functional of the result is that
of the argument against `v` along column `p`; or the result has values but no rows. -/
theorem tvpStep_spec [CommSemiring R] [DecidableEq R] (rows : List (List Nat)) (data v : List R) (p d : Nat)
    (hl : data.length = rows.length) (hn : rows.Nodup) (hp : p < d + 1) (hd : 0 < d)
    (hrl : ∀ r ∈ rows, r.length = d + 1) (hv : ∀ r ∈ rows, r.getD p 0 < v.length) :
    ∃ rows' data', tvpStep rows data v p = .ok (rows', data') ∧ (∀ r ∈ rows', ∃ r0 ∈ rows, r = r0.eraseIdx p) ∧
      ((data'.length = rows'.length ∧ rows'.Nodup ∧
        ∀ g, wsum rows' data' g = wsum rows data (fun r => v.getD (r.getD p 0) 0 * g (r.eraseIdx p))) ∨
       (rows' = [] ∧ data'.length = data.length ∧ 0 < data.length)) := by
  have hany : (rows.any (fun r => decide (v.length ≤ r.getD p 0))) = false := by
    rw [List.any_eq_false]; intro r hr; have := hv r hr; simp only [decide_eq_true_eq]; omega
  set a := (List.range rows.length).map (fun k => data.getD k 0 * v.getD ((rows.getD k []).getD p 0) 0) with ha
  have hal : a.length = rows.length := by simp [ha]
  set kept := ((rows.map (fun r => r.eraseIdx p)).zip a).filter (fun q => q.2 ≠ 0) with hkept
  have hcode : tvpStep rows data v p =
      if (kept.map Prod.fst).length * (((kept.map Prod.fst).getD 0 []).length) ≠ 0 then
        .ok ((dedupFirst (kept.map Prod.fst)).insertionSort (· ≤ ·),
          ((dedupFirst (kept.map Prod.fst)).insertionSort (· ≤ ·)).map
            (fun r => ((kept.filter (fun q => q.1 = r)).map Prod.snd).sum))
      else .ok (kept.map Prod.fst, data) := by
    unfold tvpStep
    rw [if_neg (by rw [hany]; simp), if_neg (by simp [hl])]
    have hn' : (if data.length = 1 then rows.length else data.length) = rows.length := by split <;> simp [hl]
    have ha' : (List.range (if data.length = 1 then rows.length else data.length)).map
        (fun k => (if data.length = 1 then data.getD 0 0 else data.getD k 0) *
          v.getD ((rows.getD (if rows.length = 1 then 0 else k) []).getD p 0) 0) = a := by
      rw [hn', ha]
      apply List.map_congr_left
      intro k hk
      have hk := List.mem_range.1 hk
      by_cases h1 : rows.length = 1
      · have : k = 0 := by omega
        subst this; simp [h1, hl]
      · simp [h1, hl]
    dsimp only
    rw [hn'] at ha' ⊢
    rw [ha', if_neg (not_not_intro rfl)]
  have hkmem : ∀ r ∈ kept.map Prod.fst, ∃ r0 ∈ rows, r = r0.eraseIdx p := by
    intro r hr
    obtain ⟨q, hq, rfl⟩ := List.mem_map.1 hr
    have := (List.of_mem_zip (List.mem_filter.1 hq).1).1
    obtain ⟨r0, h0, he⟩ := List.mem_map.1 this
    exact ⟨r0, h0, he.symm⟩
  have hkw : ∀ g : List Nat → R, (kept.map (fun q => q.2 * g q.1)).sum =
      wsum rows data (fun r => v.getD (r.getD p 0) 0 * g (r.eraseIdx p)) := by
    intro g
    rw [hkept, sum_filter_ne_zero]
    unfold wsum
    congr 1
    apply List.ext_getElem (by simp [hal, hl])
    intro k h1 h2
    have hk : k < rows.length := by simp [hal] at h1; omega
    simp only [List.getElem_map, List.getElem_zip, ha, List.getElem_range]
    rw [List.getD_eq_getElem data _ (by omega), List.getD_eq_getElem rows _ hk, mul_assoc]
  rw [hcode]
  by_cases hne : kept = []
  · -- nothing left
    refine ⟨[], data, by simp [hne], by simp, ?_⟩
    by_cases h0 : data.length = 0
    · left
      have hr0 : rows = [] := List.length_eq_zero_iff.1 (by omega)
      have hd0 : data = [] := List.length_eq_zero_iff.1 h0
      refine ⟨by simp [hd0], by simp, fun g => by simp [wsum, hr0]⟩
    · right; exact ⟨rfl, rfl, by omega⟩
  · have hklen : kept.length ≠ 0 := fun h => hne (List.length_eq_zero_iff.1 h)
    have hcol : ((kept.map Prod.fst).getD 0 []).length = d := by
      rw [List.getD_eq_getElem _ _ (by simp; omega)]
      obtain ⟨r0, h0, he⟩ := hkmem _ (List.getElem_mem (l := kept.map Prod.fst) (n := 0) (by simp; omega))
      rw [he, List.length_eraseIdx, hrl r0 h0, if_pos hp]; omega
    rw [if_pos (by rw [hcol, List.length_map]; exact Nat.mul_ne_zero hklen (by omega))]
    have hperm := List.perm_insertionSort (· ≤ ·) (dedupFirst (kept.map Prod.fst))
    refine ⟨_, _, rfl, ?_, Or.inl ⟨by simp, ?_, ?_⟩⟩
    · intro r hr
      rw [hperm.mem_iff, mem_dedupFirst] at hr
      exact hkmem r hr
    · exact hperm.nodup_iff.2 (nodup_dedupFirst _)
    · intro g
      rw [← hkw g, ← group_sum kept ((dedupFirst (kept.map Prod.fst)).insertionSort (· ≤ ·))
        (hperm.nodup_iff.2 (nodup_dedupFirst _)) (by
          intro q hq
          rw [hperm.mem_iff, mem_dedupFirst]
          exact List.mem_map.2 ⟨q, hq, rfl⟩) g]
      unfold wsum
      rw [zip_map_self]
      rw [List.map_map]
      rfl

/-- The shift of the later dimensions after the removal of column `p`. -/
def shiftDim (p d : Nat) : Nat := if d > p then d - 1 else d

theorem getD_eraseIdx_shift (r : List Nat) (p d : Nat) (hne : d ≠ p) :
    (r.eraseIdx p).getD (shiftDim p d) 0 = r.getD d 0 := by
  unfold shiftDim
  rw [List.getD_eq_getElem?_getD, List.getElem?_eraseIdx, List.getD_eq_getElem?_getD]
  by_cases h : d > p
  · rw [if_pos h, if_neg (by omega), Nat.sub_add_cancel (by omega)]
  · rw [if_neg h, if_pos (by omega)]

theorem shiftDim_inj {p a b : Nat} (ha : a ≠ p) (hb : b ≠ p) (h : shiftDim p a = shiftDim p b) : a = b := by
  unfold shiftDim at h
  split at h <;> split at h <;> omega

theorem shiftDim_lt {p a d : Nat} (ha : a ≠ p) (h : a < d + 1) (hp : p < d + 1) : shiftDim p a < d := by
  unfold shiftDim; split <;> omega

/-- Removing column `p` and then the shifted other columns: removing all these columns. -/
theorem entriesOff_eraseIdx (r : List Nat) (p : Nat) (ps : List Nat) (hp : p < r.length) (hps : ∀ q ∈ ps, q ≠ p) :
    entriesOff (ps.map (shiftDim p)) (r.eraseIdx p) = entriesOff (p :: ps) r := by
  -- both select, in increasing order, the positions of `r` that are not listed
  unfold entriesOff
  have hlen : (r.eraseIdx p).length = r.length - 1 := by rw [List.length_eraseIdx, if_pos hp]
  rw [hlen]
  -- positions of the shortened list, mapped to those of `r`
  set up := fun k => if k < p then k else k + 1 with hup
  have h1 : (List.range r.length).filter (fun k => decide (k ∉ p :: ps)) =
      ((List.range (r.length - 1)).filter (fun k => decide (k ∉ ps.map (shiftDim p)))).map up := by
    have hr : (List.range r.length).filter (fun k => k ≠ p) = (List.range (r.length - 1)).map up := by
      have e : r.length = p + (1 + (r.length - 1 - p)) := by omega
      have e' : r.length - 1 = p + (r.length - 1 - p) := by omega
      rw [e', List.range_add]
      conv_lhs => rw [e, List.range_add, List.range_add]
      rw [List.filter_append, List.map_append, List.filter_append, List.map_append]
      congr 1
      · have : (List.range p).filter (fun k => decide (k ≠ p)) = List.range p := by
          rw [List.filter_eq_self]; intro a ha; have := List.mem_range.1 ha; simp; omega
        rw [this]
        conv_lhs => rw [← List.map_id (List.range p)]
        apply List.map_congr_left
        intro k hk
        have := List.mem_range.1 hk
        simp [hup, this]
      · have h3 : List.filter (fun k => decide (k ≠ p)) (List.map (fun x => p + x) (List.range 1)) = [] := by simp
        rw [h3, List.nil_append, List.map_map, List.map_map]
        have h4 : ∀ l : List Nat, (l.map ((fun x => p + x) ∘ fun x => 1 + x)).filter (fun k => decide (k ≠ p)) =
            l.map ((fun x => p + x) ∘ fun x => 1 + x) := by
          intro l
          rw [List.filter_eq_self]; intro a ha; obtain ⟨b, _, rfl⟩ := List.mem_map.1 ha; simp
        rw [h4]
        apply List.map_congr_left
        intro k _
        simp only [Function.comp, hup]
        rw [if_neg (by omega)]; omega
    have hf : (fun k => decide (k ∉ p :: ps)) = (fun k => (decide (k ∉ ps)) && decide (k ≠ p)) := by
      funext k; simp [Bool.and_comm]
    rw [hf, ← List.filter_filter, hr, List.filter_map]
    congr 1
    apply List.filter_congr
    intro k _
    simp only [Function.comp]
    rw [decide_eq_decide]
    refine not_congr ?_
    rw [List.mem_map]
    constructor
    · intro h
      refine ⟨up k, h, ?_⟩
      simp only [hup, shiftDim]; split <;> split <;> omega
    · rintro ⟨q, hq, rfl⟩
      have hqp := hps q hq
      have : up (shiftDim p q) = q := by simp only [hup, shiftDim]; split <;> split <;> omega
      rw [this]; exact hq
  rw [h1, List.map_map]
  apply List.map_congr_left
  intro k hk
  simp only [Function.comp]
  rw [List.getD_eq_getElem?_getD, List.getElem?_eraseIdx, List.getD_eq_getElem?_getD]
  simp only [hup]
  split <;> rfl

/-- The loop: the functional of the result, when every step had something left. -/
theorem tvpLoop_spec [CommSemiring R] [DecidableEq R] (vs : List (List R)) (ps : List Nat) (rows : List (List Nat))
    (data : List R) (d : Nat) (hvs : vs.length = ps.length) (hl : data.length = rows.length) (hn : rows.Nodup)
    (hnd : ps.Nodup) (hlt : ∀ p ∈ ps, p < d) (hd : ps.length < d) (hrl : ∀ r ∈ rows, r.length = d)
    (hv : ∀ r ∈ rows, List.Forall₂ (fun (v : List R) p => r.getD p 0 < v.length) vs ps)
    (rows' : List (List Nat)) (data' : List R)
    (hok : tvpLoop vs ps rows data = .ok (rows', data')) (hlen' : data'.length = rows'.length) :
    rows'.Nodup ∧ (∀ r ∈ rows', ∃ r0 ∈ rows, r = entriesOff ps r0) ∧
      ∀ g, wsum rows' data' g = wsum rows data (fun r =>
        (List.zipWith (fun (v : List R) p => v.getD (r.getD p 0) 0) vs ps).prod * g (entriesOff ps r)) := by
  induction vs generalizing ps rows data d with
  | nil =>
    have : ps = [] := List.length_eq_zero_iff.1 hvs.symm
    subst this
    simp only [tvpLoop] at hok
    cases hok
    have hoff : ∀ r : List Nat, entriesOff [] r = r := by
      intro r
      unfold entriesOff
      simp only [List.not_mem_nil, not_false_eq_true, decide_true, List.filter_true]
      apply ext_getD (by simp)
      intro k hk
      rw [List.getD_eq_getElem _ _ hk, List.getElem_map, List.getElem_range]
    refine ⟨hn, fun r hr => ⟨r, hr, (hoff r).symm⟩, fun g => ?_⟩
    simp [hoff]
  | cons v vs ih =>
    cases ps with
    | nil => simp at hvs
    | cons p ps =>
      rw [List.nodup_cons] at hnd
      have hpne : ∀ q ∈ ps, q ≠ p := fun q hq he => hnd.1 (he ▸ hq)
      have hpd : p < d := hlt p (by simp)
      simp only [List.length_cons] at hd
      obtain ⟨d', rfl⟩ : ∃ d', d = d' + 1 := ⟨d - 1, by omega⟩
      have hvp : ∀ r ∈ rows, r.getD p 0 < v.length := fun r hr => ((List.forall₂_cons.1 (hv r hr)).1)
      obtain ⟨r1, d1, hs, hr1, hcase⟩ := tvpStep_spec rows data v p d' hl hn (by omega) (by omega) hrl hvp
      simp only [tvpLoop, hs, bind, Except.bind] at hok
      have hmapeq : ps.map (fun d => if d > p then d - 1 else d) = ps.map (shiftDim p) := rfl
      rw [hmapeq] at hok
      rcases hcase with ⟨hl1, hn1, hw1⟩ | ⟨he, hl1, hpos⟩
      · have hr1l : ∀ r ∈ r1, r.length = d' := by
          intro r hr
          obtain ⟨r0, h0, rfl⟩ := hr1 r hr
          rw [List.length_eraseIdx, hrl r0 h0, if_pos hpd]; omega
        have hv1 : ∀ r ∈ r1, List.Forall₂ (fun (v : List R) p => r.getD p 0 < v.length) vs (ps.map (shiftDim p)) := by
          intro r hr
          obtain ⟨r0, h0, rfl⟩ := hr1 r hr
          have h2 := (List.forall₂_cons.1 (hv r0 h0)).2
          rw [List.forall₂_map_right_iff]
          rw [List.forall₂_iff_get] at h2 ⊢
          refine ⟨h2.1, fun i ha hb => ?_⟩
          rw [getD_eraseIdx_shift _ _ _ (hpne _ (List.get_mem _ _))]
          exact h2.2 i ha hb
        obtain ⟨i1, i2, i3⟩ := ih (ps.map (shiftDim p)) r1 d1 d' (by simpa using hvs) hl1 hn1
          (hnd.2.map_on (fun a ha b hb h => shiftDim_inj (hpne a ha) (hpne b hb) h))
          (by
            intro q hq
            obtain ⟨q0, hq0, rfl⟩ := List.mem_map.1 hq
            exact shiftDim_lt (hpne q0 hq0) (hlt q0 (by simp [hq0])) (by omega))
          (by simp; omega) hr1l hv1 hok
        refine ⟨i1, ?_, ?_⟩
        · intro r hr
          obtain ⟨r2, h2, rfl⟩ := i2 r hr
          obtain ⟨r0, h0, rfl⟩ := hr1 r2 h2
          exact ⟨r0, h0, entriesOff_eraseIdx r0 p ps (by rw [hrl r0 h0]; exact hpd) hpne⟩
        · intro g
          rw [i3 g, hw1]
          unfold wsum
          congr 1
          apply List.map_congr_left
          intro q hq
          have hq1 := (List.of_mem_zip hq).1
          congr 1
          show _ * (_ * _) = _ * _
          rw [List.zipWith_cons_cons, List.prod_cons, ← entriesOff_eraseIdx q.1 p ps (by rw [hrl _ hq1]; exact hpd) hpne,
            mul_assoc]
          congr 3
          rw [List.zipWith_map_right]
          apply List.ext_getElem (by simp)
          intro i ha hb
          simp only [List.getElem_zipWith]
          rw [getD_eraseIdx_shift _ _ _ (hpne _ (List.getElem_mem _))]
      · -- values without rows: this stays so until the end
        exfalso
        subst he
        clear hs hv hvp hlt hnd hpne ih hmapeq hvs hrl hl hn hd
        have key : ∀ (vs : List (List R)) (ps : List Nat) (dd : List R), 0 < dd.length →
            tvpLoop vs ps [] dd = .ok (rows', data') → 0 < data'.length ∧ rows' = [] := by
          intro vs
          induction vs with
          | nil => intro ps dd h0 h; simp only [tvpLoop] at h; cases h; exact ⟨h0, rfl⟩
          | cons v vs ih =>
            intro ps dd h0 h
            cases ps with
            | nil => simp only [tvpLoop] at h; cases h; exact ⟨h0, rfl⟩
            | cons p ps =>
              simp only [tvpLoop, bind, Except.bind] at h
              by_cases h1 : dd.length = 1
              · have : tvpStep [] dd v p = .ok ([], dd) := by
                  unfold tvpStep
                  simp [h1]
                rw [this] at h
                exact ih _ dd h0 h
              · have : tvpStep [] dd v p = .error .valueError := by
                  unfold tvpStep
                  rw [if_neg (by simp), if_pos]
                  refine ⟨by simp only [List.length_nil]; omega, h1, by simp⟩
                rw [this] at h
                simp at h
        obtain ⟨h1, h2⟩ := key _ _ d1 (by omega) hok
        rw [h2] at hlen'
        simp at hlen'
        rw [hlen'] at h1
        simp at h1

theorem wsum_indicator [CommSemiring R] {rows : List (List Nat)} {data : List R} (hl : data.length = rows.length)
    (hn : rows.Nodup) (idx : List Nat) :
    wsum rows data (fun r => if r = idx then 1 else 0) = valueAt rows data idx := by
  rw [valueAt_eq_sum hl hn]
  unfold wsum
  congr 1
  apply List.map_congr_left
  intro p _
  by_cases h : p.1 = idx
  · show p.2 * (if p.1 = idx then 1 else 0) = _
    rw [if_pos h, if_pos h, mul_one]
  · show p.2 * (if p.1 = idx then 1 else 0) = _
    rw [if_neg h, if_neg h, mul_zero]

theorem subst_eq_iff {idx dims s r : List Nat} (hnd : dims.Nodup) (hr : r.length = idx.length)
    (hlt : ∀ k ∈ dims, k < idx.length) (hs : s.length = dims.length) :
    r = subst idx dims s ↔ entriesOff dims r = entriesOff dims idx ∧ entriesAt dims r = s := by
  constructor
  · intro h
    constructor
    · unfold entriesOff
      rw [hr]
      apply List.map_congr_left
      intro k hk
      have hk := List.mem_filter.1 hk
      have hk1 := List.mem_range.1 hk.1
      have hk2 : k ∉ dims := by simpa using hk.2
      rw [h, FullTensor.getD_subst _ _ _ _ hk1, if_neg hk2]
    · apply ext_getD (by simp [entriesAt, hs])
      intro i hi
      have hi : i < dims.length := by simpa [entriesAt] using hi
      show (applyPerm dims r).getD i 0 = _
      rw [getD_applyPerm _ _ _ hi, List.getD_eq_getElem dims _ hi, h,
        FullTensor.getD_subst _ _ _ _ (hlt _ (List.getElem_mem hi)), if_pos (List.getElem_mem hi), hnd.idxOf_getElem]
  · rintro ⟨h1, h2⟩
    apply ext_getD (by rw [hr, FullTensor.subst_length])
    intro k hk
    rw [hr] at hk
    rw [FullTensor.getD_subst _ _ _ _ hk]
    by_cases hkd : k ∈ dims
    · rw [if_pos hkd, ← h2]
      have hi := List.idxOf_lt_length_of_mem hkd
      show _ = (applyPerm dims r).getD _ 0
      rw [getD_applyPerm _ _ _ hi, List.getD_eq_getElem dims _ hi, List.getElem_idxOf hi]
    · rw [if_neg hkd]
      unfold entriesOff at h1
      rw [hr] at h1
      have := List.map_inj_left.1 h1 k (List.mem_filter.2 ⟨List.mem_range.2 hk, by simpa using hkd⟩)
      exact this

theorem entriesOff_eq_applyPerm (dims v : List Nat) :
    entriesOff dims v = applyPerm (FullTensor.setdiffRange v.length dims) v := by
  unfold entriesOff applyPerm FullTensor.setdiffRange
  congr 1
  apply List.filter_congr
  intro k _; simp

/-- Every tuple of remaining entries comes from an index tuple, when the other sizes are positive. -/
theorem exists_entriesOff {shape dims jdx : List Nat} (hnd : dims.Nodup) (hlt : ∀ k ∈ dims, k < shape.length)
    (hpos : ∀ k ∈ dims, 0 < shape.getD k 0) (hj : InBox (entriesOff dims shape) jdx) :
    ∃ idx, InBox shape idx ∧ entriesOff dims idx = jdx := by
  have hperm := dims_append_perm' hnd hlt
  set P := FullTensor.setdiffRange shape.length dims ++ dims with hP
  have hjl : jdx.length = (FullTensor.setdiffRange shape.length dims).length := by
    rw [hj.length_eq, entriesOff_eq_applyPerm]; simp
  have hwl : (applyPerm (invPerm P) (jdx ++ List.replicate dims.length 0)).length = shape.length := by
    rw [length_applyPerm, length_invPerm, perm_len hperm]
  have happ : applyPerm P (applyPerm (invPerm P) (jdx ++ List.replicate dims.length 0)) = jdx ++ List.replicate dims.length 0 := by
    refine applyPerm_invPerm hperm ?_
    have h := perm_len hperm
    rw [hP, List.length_append] at h
    rw [List.length_append, hjl, List.length_replicate, h]
  refine ⟨applyPerm (invPerm P) (jdx ++ List.replicate dims.length 0), ?_, ?_⟩
  · rw [← inBox_applyPerm hperm rfl hwl, happ, hP, applyPerm_append, inBox_append (by simp [hjl])]
    refine ⟨by rw [← entriesOff_eq_applyPerm]; exact hj, ?_⟩
    rw [inBox_iff_getD]
    refine ⟨by simp, fun k hk => ?_⟩
    have hk : k < dims.length := by simpa using hk
    rw [getD_applyPerm _ _ _ hk, List.getD_eq_getElem _ _ (by simpa using hk), List.getElem_replicate,
      List.getD_eq_getElem dims _ hk]
    exact hpos _ (List.getElem_mem hk)
  · rw [entriesOff_eq_applyPerm, hwl]
    rw [hP, applyPerm_append] at happ
    exact (List.append_inj happ (by simp [hjl])).1

/-- A contraction of a full tensor given by a list of entries, as a sum over the entries. -/
theorem tvp_valueAt [CommSemiring R] (x : Arr R) (rows : List (List Nat)) (data : List R)
    (hl : data.length = rows.length) (hn : rows.Nodup) (hb : ∀ r ∈ rows, InBox x.shape r)
    (h2 : ∀ idx, InBox x.shape idx → valueAt rows data idx = x.get idx) (dims : List Nat) (hnd : dims.Nodup)
    (hlt : ∀ k ∈ dims, k < x.order) (vs : List (List R)) (idx : List Nat) (hidx : InBox x.shape idx) :
    sumBox (entriesAt dims x.shape) (fun u => x.get (subst idx dims u) *
        (List.zipWith (fun (v : List R) j => v.getD j 0) vs u).prod) =
      ((rows.zip data).map (fun p => if entriesOff dims p.1 = entriesOff dims idx then
        p.2 * (List.zipWith (fun (v : List R) q => v.getD (p.1.getD q 0) 0) vs dims).prod else 0)).sum := by
  have hx : ∀ u, InBox (entriesAt dims x.shape) u →
      x.get (subst idx dims u) * (List.zipWith (fun (v : List R) j => v.getD j 0) vs u).prod =
      ((rows.zip data).map (fun p => if entriesAt dims p.1 = u then
        (if entriesOff dims p.1 = entriesOff dims idx then p.2 *
          (List.zipWith (fun (v : List R) j => v.getD j 0) vs u).prod else 0) else 0)).sum := by
    intro u hu
    have hul : u.length = dims.length := by rw [hu.length_eq]; simp [entriesAt]
    have hsub : InBox x.shape (subst idx dims u) := by
      rw [inBox_iff_getD] at hidx hu ⊢
      refine ⟨by rw [FullTensor.subst_length]; exact hidx.1, fun k hk => ?_⟩
      rw [FullTensor.getD_subst _ _ _ _ (by rw [hidx.1]; exact hk)]
      by_cases hkd : k ∈ dims
      · rw [if_pos hkd]
        have hi := List.idxOf_lt_length_of_mem hkd
        have := hu.2 (dims.idxOf k) (by simpa [entriesAt] using hi)
        change _ < (applyPerm dims x.shape).getD _ 0 at this
        rwa [getD_applyPerm _ _ _ hi, List.getD_eq_getElem dims _ hi, List.getElem_idxOf hi] at this
      · rw [if_neg hkd]; exact hidx.2 k hk
    rw [← h2 _ hsub, valueAt_eq_sum hl hn, ← List.sum_map_mul_right]
    congr 1
    apply List.map_congr_left
    intro p hp
    have hp1 := (List.of_mem_zip hp).1
    have hpl : p.1.length = idx.length := by rw [(hb _ hp1).length_eq, hidx.length_eq]
    have hiff := subst_eq_iff (idx := idx) (s := u) hnd hpl (by rw [hidx.length_eq]; exact hlt) hul
    by_cases c1 : entriesAt dims p.1 = u
    · by_cases c2 : entriesOff dims p.1 = entriesOff dims idx
      · rw [if_pos c1, if_pos c2, if_pos (hiff.2 ⟨c2, c1⟩)]
      · rw [if_pos c1, if_neg c2, if_neg (fun h => c2 (hiff.1 h).1), zero_mul]
    · rw [if_neg c1, if_neg (fun h => c1 (hiff.1 h).2), zero_mul]
  rw [sumBox_congr hx, list_sum_sumBox]
  congr 1
  apply List.map_congr_left
  intro p hp
  have hp1 := (List.of_mem_zip hp).1
  have hpbox : InBox (entriesAt dims x.shape) (entriesAt dims p.1) := by
    have hb := (inBox_iff_getD _ _).1 (hb _ hp1)
    rw [inBox_iff_getD]
    refine ⟨by simp [entriesAt], fun k hk => ?_⟩
    have hk : k < dims.length := by simpa [entriesAt] using hk
    show (applyPerm dims p.1).getD k 0 < (applyPerm dims x.shape).getD k 0
    rw [getD_applyPerm _ _ _ hk, getD_applyPerm _ _ _ hk, List.getD_eq_getElem dims _ hk]
    exact hb.2 _ (hlt _ (List.getElem_mem hk))
  rw [sumBox_ite hpbox (fun u => if entriesOff dims p.1 = entriesOff dims idx then p.2 *
          (List.zipWith (fun (v : List R) j => v.getD j 0) vs u).prod else 0)]
  have e : List.zipWith (fun (v : List R) q => v.getD (p.1.getD q 0) 0) vs dims =
      List.zipWith (fun (v : List R) j => v.getD j 0) vs (entriesAt dims p.1) := by
    unfold entriesAt; rw [List.zipWith_map_right]
  rw [e]

/-- C28, partial: when at least one dimension remains, and the result has as many values as indices, the result
represents the contraction of the full tensor. What is missing: the contraction of all the dimensions, and
contractions in which all the products vanish at some step, where the code keeps the old values
(`tensorVectorProduct_full_wrong`, `tensorVectorProduct_vanishing_wrong`). -/
theorem tensorVectorProduct_partial [CommSemiring R] [DecidableEq R] (s : Sp R) (x : Arr R) (hs : Represents s x)
    (vs : List (List R)) (dims : List Nat) (hnd : dims.Nodup)
    (hfit : List.Forall₂ (fun (v : List R) d => d < x.order ∧ v.length = x.shape.getD d 0) vs dims)
    (hpos : ∀ d ∈ dims, 0 < x.shape.getD d 0) (hdims : dims.length < x.order) (t : Sp R)
    (hok : tensorVectorProduct s vs dims = .ok (.tensor t)) (hlen : t.data.length = t.rows.length) :
    ∃ y, FullTensor.tensorVectorProduct x (vs.map (fun v => ⟨[v.length], fun i => v.getD (i.getD 0 0) 0⟩)) (some dims) = .ok y ∧
      Represents t y := by
  have hws := hs.1
  obtain ⟨h1, h2⟩ := (represents_iff hws).1 hs
  have hsl : s.shape.length = x.order := by rw [h1]; rfl
  have hlt : ∀ k ∈ dims, k < x.order := by
    intro k hk
    obtain ⟨i, hi, rfl⟩ := List.getElem_of_mem hk
    have := List.forall₂_iff_get.1 hfit
    exact (this.2 i (by rw [this.1]; exact hi) hi).1
  obtain ⟨y, hy1, hy2, hy3⟩ := FullTensor.tensorVectorProduct_spec x
    (vs.map (fun v => ⟨[v.length], fun i => v.getD (i.getD 0 0) 0⟩)) dims hnd (by
      rw [List.forall₂_map_left_iff]
      refine hfit.imp ?_
      rintro v d ⟨ha, hb⟩
      exact ⟨ha, by simp [hb]⟩)
  refine ⟨y, hy1, ?_⟩
  -- unfold the code
  unfold tensorVectorProduct at hok
  simp only [hfit.length_eq, ne_eq, not_true_eq_false, if_false, bind, Except.bind] at hok
  have hnotnil : FullTensor.setdiffRange s.shape.length dims ≠ [] := by
    intro h
    have := length_setdiffRange hnd hlt
    rw [← hsl, h] at this
    simp at this; omega
  cases hloop : tvpLoop vs dims s.rows s.data with
  | error e => rw [hloop] at hok; simp at hok
  | ok res =>
    obtain ⟨rows', data'⟩ := res
    rw [hloop] at hok
    simp only [hnotnil, if_false] at hok
    cases hok
    simp only at hlen
    have hrl : ∀ r ∈ s.rows, r.length = x.order := fun r hr => by rw [(hws.inBox r hr).length_eq, hsl]
    obtain ⟨l1, l2, l3⟩ := tvpLoop_spec vs dims s.rows s.data x.order hfit.length_eq hws.len hws.nodup hnd hlt hdims hrl
      (by
        intro r hr
        have hb := hws.inBox r hr
        rw [List.forall₂_iff_get] at hfit ⊢
        refine ⟨hfit.1, fun i ha hb' => ?_⟩
        obtain ⟨h3, h4⟩ := hfit.2 i ha hb'
        rw [h4, ← h1]
        exact ((inBox_iff_getD _ _).1 hb).2 _ (by rw [hsl]; exact h3)) rows' data' hloop hlen
    have hoffbox : ∀ r, InBox x.shape r → InBox (entriesOff dims x.shape) (entriesOff dims r) := by
      intro r hr
      have := (inBox_applyPerm (dims_append_perm hnd hlt) (s := x.shape) rfl hr.length_eq).2 hr
      rw [applyPerm_append, applyPerm_append, inBox_append (by simp)] at this
      have e : ∀ v : List Nat, v.length = x.order → entriesOff dims v = applyPerm (FullTensor.setdiffRange x.order dims) v := by
        intro v hv
        unfold entriesOff applyPerm FullTensor.setdiffRange
        rw [hv]
        congr 1
        apply List.filter_congr
        intro k _; simp
      rw [e _ rfl, e _ hr.length_eq]
      exact this.2
    have hoffsh : applyPerm (FullTensor.setdiffRange s.shape.length dims) s.shape = entriesOff dims x.shape := by
      rw [h1]
      unfold entriesOff applyPerm FullTensor.setdiffRange
      congr 1
      apply List.filter_congr
      intro k _; simp
    have hwf : WF (⟨applyPerm (FullTensor.setdiffRange s.shape.length dims) s.shape, rows', data', false, false⟩ : Sp R) := by
      refine ⟨hlen, l1, ?_⟩
      intro r hr
      obtain ⟨r0, h0, rfl⟩ := l2 r hr
      rw [hoffsh]
      exact hoffbox r0 (h1 ▸ hws.inBox r0 h0)
    refine (represents_iff hwf).2 ⟨by rw [hy2, hoffsh], ?_⟩
    intro jdx hj
    rw [hoffsh] at hj
    obtain ⟨idx, hidx, rfl⟩ := exists_entriesOff hnd hlt hpos hj
    rw [← wsum_indicator hlen l1, l3, hy3 idx hidx]
    rw [show (fun u => x.get (subst idx dims u) * (List.zipWith (fun (v : Arr R) j => v.get [j])
          (vs.map (fun v => (⟨[v.length], fun i => v.getD (i.getD 0 0) 0⟩ : Arr R))) u).prod) =
        (fun u => x.get (subst idx dims u) * (List.zipWith (fun (v : List R) j => v.getD j 0) vs u).prod) by
      funext u; rw [List.zipWith_map_left]; rfl]
    rw [tvp_valueAt x s.rows s.data hws.len hws.nodup (h1 ▸ hws.inBox) (fun i hi => h2 i (h1 ▸ hi)) dims hnd hlt vs idx hidx]
    unfold wsum
    congr 1
    apply List.map_congr_left
    intro p hp
    show p.2 * (_ * (if entriesOff dims p.1 = entriesOff dims idx then 1 else 0)) = _
    by_cases c2 : entriesOff dims p.1 = entriesOff dims idx
    · rw [if_pos c2, if_pos c2, mul_one]
    · rw [if_neg c2, if_neg c2, mul_zero, mul_zero]

/-- Non-vacuity: a contraction with two entries that meets the hypotheses. -/
theorem tensorVectorProduct_example :
    let s : Sp Int := ⟨[2, 3], [[0, 1], [1, 2], [1, 1]], [5, 7, -2], false, false⟩
    tensorVectorProduct s [[1, 2]] [0] = .ok (.tensor ⟨[3], [[1], [2]], [1, 14], false, false⟩) ∧ WF s := by
  refine ⟨by rfl, ⟨by decide, by decide, by decide +kernel⟩⟩

/-- The full contraction of a tensor of order one never contracts: whatever the vector, the returned array is the
stored data. -/
theorem tensorVectorProduct_order_one_wrong [CommSemiring R] [DecidableEq R] (s : Sp R) (hs : WF s) (n : Nat)
    (hsh : s.shape = [n]) (v : List R) (hv : v.length = n) :
    tensorVectorProduct s [v] [0] = .ok (.array s.data) := by
  have hr : ∀ r ∈ s.rows, ∃ a, r = [a] ∧ a < n := by
    intro r hr
    have := hs.inBox r hr
    rw [hsh] at this
    cases r with
    | nil => simp at this
    | cons a r =>
      simp only [inBox_cons_cons] at this
      cases r with
      | nil => exact ⟨a, rfl, this.1⟩
      | cons b r => simp at this
  have hnil : FullTensor.setdiffRange s.shape.length [0] = [] := by rw [hsh]; rfl
  have hstep : tvpStep s.rows s.data v 0 = .ok (((tvpStep s.rows s.data v 0).toOption.getD ([], [])).1, s.data) := by
    have hany : (s.rows.any (fun r => decide (v.length ≤ r.getD 0 0))) = false := by
      rw [List.any_eq_false]
      intro r h
      obtain ⟨a, rfl, ha⟩ := hr r h
      simp only [List.getD_cons_zero, decide_eq_true_eq]; omega
    have key : ∀ l : List (List Nat × R), (∀ q ∈ l, q.1 = []) → (l.map Prod.fst).length * ((l.map Prod.fst).getD 0 []).length = 0 := by
      intro l hl
      cases l with
      | nil => simp
      | cons q l => simp [hl q (by simp)]
    unfold tvpStep
    rw [if_neg (by rw [hany]; simp), if_neg (by simp [hs.len])]
    dsimp only
    have hn' : (if s.data.length = 1 then s.rows.length else s.data.length) = s.rows.length := by split <;> simp [hs.len]
    rw [hn', if_neg (not_not_intro rfl), if_neg]
    · rfl
    · rw [ne_eq, not_not]
      apply key
      intro q hq
      have := (List.of_mem_zip (List.mem_filter.1 hq).1).1
      obtain ⟨r0, h0, he⟩ := List.mem_map.1 this
      obtain ⟨a, rfl, _⟩ := hr r0 h0
      rw [← he]; rfl
  unfold tensorVectorProduct
  simp only [List.length_singleton, ne_eq, not_true_eq_false, if_false, tvpLoop, bind, Except.bind]
  rw [hstep]
  simp [hnil]

/-- A full contraction of a tensor of order two: the array of the last but one contraction is returned, not the
scalar 5·1·1 + 7·2·10 = 145. -/
theorem tensorVectorProduct_full_wrong :
    let s : Sp Int := ⟨[2, 2], [[0, 0], [1, 1]], [5, 7], false, false⟩
    tensorVectorProduct s [[1, 2], [1, 10]] [0, 1] = .ok (.array [5, 14]) := by rfl

/-- When all the products vanish, the result keeps the old values without indices, and `full()` of it raises. -/
theorem tensorVectorProduct_vanishing_wrong :
    let s : Sp Int := ⟨[2, 2], [[0, 0], [0, 1]], [5, 7], false, false⟩
    ∃ t, tensorVectorProduct s [[0, 1]] [0] = .ok (.tensor t) ∧ t.data = [5, 7] ∧ t.rows = [] ∧
      full t = .error .valueError := by
  exact ⟨_, rfl, rfl, rfl, rfl⟩

/-- `tensor_matrix_product_eval_diag(matrices)`: entry `i` is the sum over the entries of the full tensor of the
products with the entries of the rows `i` of the matrices. -/
theorem tensorMatrixProductEvalDiag_spec [CommSemiring R] (s : Sp R) (x : Arr R) (hs : Represents s x)
    (matrices : List (Arr R)) (i : Nat) :
    tensorMatrixProductEvalDiag s matrices i = sumBox x.shape (fun idx => x.get idx *
      (List.zipWith (fun (M : Arr R) j => M.get [i, j]) matrices idx).prod) := by
  obtain ⟨h1, h2⟩ := (represents_iff hs.1).1 hs
  have hw := hs.1
  rw [← h1, sumBox_congr (g := fun idx => valueAt s.rows s.data idx *
      (List.zipWith (fun (M : Arr R) j => M.get [i, j]) matrices idx).prod) (fun v hv => by rw [h2 v hv]),
    sumBox_valueAt hw.len hw.nodup hw.inBox]
  unfold tensorMatrixProductEvalDiag
  congr 1
  apply List.map_congr_left
  intro p _
  exact mul_comm _ _

end Verif.Sparse
