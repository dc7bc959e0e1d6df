import Verif.Props.LeastSquares

/-!
# k-fold cross-validation and selection along a path of bases
-/

namespace Verif.LeastSquares

open Finset Matrix

variable {N P : Nat}

theorem scatter_none (test : List (Fin N)) (loc : Fin test.length → ℝ) (i : Fin N) (L : List (Fin test.length))
    (h : ∀ k ∈ L, test.get k ≠ i) (v : ℝ) : L.foldl (fun v k => if test.get k = i then loc k else v) v = v := by
  induction L generalizing v with
  | nil => rfl
  | cons a L ih =>
    rw [List.foldl_cons, if_neg (h a (by simp))]
    exact ih (fun k hk => h k (by simp [hk])) v

theorem scatter_one (test : List (Fin N)) (loc : Fin test.length → ℝ) (i : Fin N) (L : List (Fin test.length))
    (k0 : Fin test.length) (hk0 : k0 ∈ L) (h0 : test.get k0 = i) (h : ∀ k ∈ L, test.get k = i → k = k0) (v : ℝ) :
    L.foldl (fun v k => if test.get k = i then loc k else v) v = loc k0 := by
  induction L generalizing v with
  | nil => simp at hk0
  | cons a L ih =>
    rw [List.foldl_cons]
    by_cases hL : k0 ∈ L
    · exact ih hL (fun k hk => h k (by simp [hk])) _
    · have ha : k0 = a := by simpa [hL] using hk0
      subst ha
      rw [if_pos h0]
      apply scatter_none
      intro k hk e
      exact hL (h k (by simp [hk]) e ▸ hk)

theorem scatter_get (delta : Fin N → ℝ) (test : List (Fin N)) (hn : test.Nodup) (loc : Fin test.length → ℝ)
    (k : Fin test.length) : scatter delta test loc (test.get k) = loc k := by
  unfold scatter
  refine scatter_one test loc _ _ k (List.mem_finRange k) rfl (fun k' _ h => ?_) _
  exact (List.nodup_iff_injective_get.1 hn) h

theorem scatter_off (delta : Fin N → ℝ) (test : List (Fin N)) (loc : Fin test.length → ℝ) (i : Fin N) (hi : i ∉ test) :
    scatter delta test loc i = delta i := by
  unfold scatter
  apply scatter_none
  intro k _ e
  exact hi (e ▸ List.get_mem test k)

theorem sum_get (t : List (Fin N)) (g : Fin N → ℝ) : ∑ k : Fin t.length, g (t.get k) = (t.map g).sum := by
  rw [← List.sum_ofFn]
  congr 1
  apply List.ext_get
  · simp
  · intro n h1 h2
    simp

theorem sum_toFinset_get (t : List (Fin N)) (hn : t.Nodup) (g : Fin N → ℝ) :
    ∑ j ∈ t.toFinset, g j = ∑ k : Fin t.length, g (t.get k) := by
  rw [sum_get, List.sum_toFinset g hn]

/-- The system of a fold is injective. -/
theorem foldMat_inj {A : Matrix (Fin N) (Fin P) ℝ} {H : Matrix (Fin N) (Fin N) ℝ} (hH : HatOk A H) (t : List (Fin N))
    (hn : t.Nodup) (hd : Determined A (t.toFinset)ᶜ univ) (v : Fin t.length → ℝ)
    (hv : (1 - H.submatrix t.get t.get) *ᵥ v = 0) : v = 0 := by
  have hinj := List.nodup_iff_injective_get.1 hn
  let w : Fin N → ℝ := fun i => ∑ k, if t.get k = i then v k else 0
  have hw : ∀ k, w (t.get k) = v k := by
    intro k
    simp only [w]
    rw [Finset.sum_eq_single k (fun k' _ hk' => if_neg (fun h => hk' (hinj h))) (fun h => absurd (mem_univ _) h), if_pos rfl]
  have hz := fold_inj hH hd w (fun i hi => by
    simp only [w]
    apply Finset.sum_eq_zero
    intro k _
    rw [if_neg]
    intro e
    exact hi (List.mem_toFinset.2 (e ▸ List.get_mem t k))) (fun i hi => by
    obtain ⟨k, rfl⟩ := List.get_of_mem (List.mem_toFinset.1 hi)
    rw [sum_toFinset_get t hn (fun j => H (t.get k) j * w j), hw]
    have h1 := congrFun hv k
    rw [sub_mulVec, one_mulVec] at h1
    simp only [Pi.sub_apply, Pi.zero_apply, mulVec_eq, submatrix_apply] at h1
    simpa only [hw] using h1)
  funext k
  rw [← hw, hz]
  rfl

/-- One fold. -/
theorem foldStep_spec {la : La} (hla : LaOk la) {A : Matrix (Fin N) (Fin P) ℝ} {H : Matrix (Fin N) (Fin N) ℝ} (hH : HatOk A H)
    {y : Fin N → ℝ} {sol : Fin P → ℝ} (hsol : Aᵀ *ᵥ (y - A *ᵥ sol) = 0) (t : List (Fin N))
    (hn : t.Nodup) (hd : Determined A (t.toFinset)ᶜ univ) (st : List ℝ × (Fin N → ℝ)) :
    ∃ β, IsFit A y (t.toFinset)ᶜ univ β ∧ ∃ delta : Fin N → ℝ, (∀ i ∈ t, delta i = residual A y β i) ∧
      (∀ i, i ∉ t → delta i = st.2 i) ∧
      foldStep la A y sol H st t = .ok (st.1 ++ [(t.map (fun i => residual A y β i ^ 2)).sum / (t.length : ℝ)], delta) := by
  obtain ⟨β, hβ⟩ := exists_fit hla A y (t.toFinset)ᶜ
  obtain ⟨loc, hloc⟩ := hla.solve_complete (1 - H.submatrix t.get t.get)
    (fun k => y (t.get k) - (A *ᵥ sol) (t.get k)) rfl (foldMat_inj hH t hn hd)
  have h1 := hla.solve_sound _ _ _ hloc
  have h2 : loc = fun k => residual A y β (t.get k) := by
    rw [← sub_eq_zero]
    apply foldMat_inj hH t hn hd
    rw [mulVec_sub, h1]
    funext k
    have h3 := fold_identity hH hsol hβ (t.get k)
    rw [sum_toFinset_get t hn (fun j => H (t.get k) j * residual A y β j)] at h3
    rw [Pi.sub_apply, sub_mulVec, one_mulVec]
    simp only [Pi.sub_apply, Pi.zero_apply, mulVec_eq, submatrix_apply]
    rw [h3]
    simp [residual_eq, mulVec_eq]
  refine ⟨β, hβ, scatter st.2 t loc, ?_, fun i hi => scatter_off _ _ _ _ hi, ?_⟩
  · intro i hi
    obtain ⟨k, rfl⟩ := List.get_of_mem hi
    rw [scatter_get _ _ hn, h2]
  · unfold foldStep
    rw [hloc]
    simp only [bind, Except.bind]
    congr 4
    rw [h2]
    unfold mean
    rw [sum_get t (fun i => residual A y β i ^ 2)]

theorem folds_spec {la : La} (hla : LaOk la) {A : Matrix (Fin N) (Fin P) ℝ} {H : Matrix (Fin N) (Fin N) ℝ} (hH : HatOk A H)
    {y : Fin N → ℝ} {sol : Fin P → ℝ} (hsol : Aᵀ *ᵥ (y - A *ᵥ sol) = 0) (fs : List (List (Fin N)))
    (hn : fs.flatten.Nodup) (hd : ∀ t ∈ fs, Determined A (t.toFinset)ᶜ univ) (st : List ℝ × (Fin N → ℝ)) :
    ∃ d : Fin N → ℝ, IsFoldRes A y univ fs d ∧ (∀ i, i ∉ fs.flatten → d i = st.2 i) ∧
      fs.foldlM (foldStep la A y sol H) st =
        .ok (st.1 ++ fs.map (fun t => (t.map (fun i => d i ^ 2)).sum / (t.length : ℝ)), d) := by
  induction fs generalizing st with
  | nil =>
    refine ⟨st.2, fun t ht => by simp at ht, fun _ _ => rfl, ?_⟩
    simp [pure, Except.pure]
  | cons t fs ih =>
    rw [List.flatten_cons, List.nodup_append] at hn
    obtain ⟨hn1, hn2, hn3⟩ := hn
    obtain ⟨β, hβ, delta, h1, h2, h3⟩ := foldStep_spec hla hH hsol t hn1 (hd t (by simp)) st
    obtain ⟨d, h4, h5, h6⟩ := ih hn2 (fun t ht => hd t (by simp [ht]))
      (st.1 ++ [(t.map (fun i => residual A y β i ^ 2)).sum / (t.length : ℝ)], delta)
    have hdt : ∀ i ∈ t, d i = residual A y β i := by
      intro i hi
      rw [h5 i (fun h => hn3 i hi i h rfl)]
      exact h1 i hi
    refine ⟨d, ?_, ?_, ?_⟩
    · intro t' ht'
      rcases List.mem_cons.1 ht' with rfl | ht'
      · exact ⟨β, hβ, hdt⟩
      · exact h4 t' ht'
    · intro i hi
      rw [List.flatten_cons, List.mem_append, not_or] at hi
      rw [h5 i hi.2]
      exact h2 i hi.1
    · rw [List.foldlM_cons, h3]
      show fs.foldlM _ _ = _
      rw [h6]
      dsimp only
      rw [List.append_assoc]
      congr 3
      rw [List.map_cons, List.singleton_append]
      congr 3
      exact List.map_congr_left (fun i hi => by rw [hdt i hi])

/-- The k-fold branch with the hat matrix. -/
theorem cv_kFold {la : La} (hla : LaOk la) (o : Opts) {A : Matrix (Fin N) (Fin P) ℝ} {y : Fin N → ℝ} {sol : Fin P → ℝ}
    {f : Factors N P} (hH : HatOk A (hat A f)) (hsol : Aᵀ *ᵥ (y - A *ᵥ sol) = 0) (k : Nat)
    (hk : effective o.kind N = .kFold (some k)) (hk2 : 2 ≤ k) (hkN : k ≤ N) (hP : (P : ℝ) ≤ (N : ℝ) * (1 - 1 / k))
    (hd : ∀ t ∈ la.folds k N, Determined A (t.toFinset)ᶜ univ) {m : ℝ} (hm : m ≠ 0) :
    ∃ d : Fin N → ℝ, IsFoldRes A y univ (la.folds k N) d ∧
      cvError la o A y m sol f = .ok (.val (Real.sqrt (foldMean (la.folds k N) d / m * (correction la o f).getD 1)),
        fun i => .val (d i)) := by
  obtain ⟨h1, h2, h3⟩ := hla.folds k N hk2 hkN
  obtain ⟨d, h4, _, h6⟩ := folds_spec hla hH hsol (la.folds k N) (h2.nodup_iff.2 (List.nodup_finRange N)) hd ([], fun _ => 0)
  refine ⟨d, h4, ?_⟩
  unfold cvError
  rw [hk]
  have hmin : min N ((some k).getD 0) = k := by simp [hkN]
  dsimp only
  rw [if_neg (by
    rw [hmin]
    rintro (h | h)
    · omega
    · linarith), hmin, h6]
  simp only [bind, Except.bind, List.nil_append]
  rw [finish_val _ _ _ _ _ hm]
  unfold foldMean
  rw [List.length_map]

/-! ### Reduction to some features -/

theorem cols_nodup (pat : Fin P → Bool) : (cols pat).Nodup := (List.nodup_finRange P).filter _

theorem mem_cols (pat : Fin P → Bool) (p : Fin P) : p ∈ cols pat ↔ pat p = true := by
  simp [cols]

/-- The features selected by a pattern. -/
def supp (pat : Fin P → Bool) : Finset (Fin P) := univ.filter (fun p => pat p = true)

theorem mem_supp (pat : Fin P → Bool) (p : Fin P) : p ∈ supp pat ↔ pat p = true := by simp [supp]

theorem cols_length (pat : Fin P → Bool) : (cols pat).length = (supp pat).card := by
  rw [← List.toFinset_card_of_nodup (cols_nodup pat)]
  congr 1
  ext p
  rw [List.mem_toFinset, mem_cols, mem_supp]

theorem embed_get {l : List (Fin P)} (hn : l.Nodup) (s : Fin l.length → ℝ) (k : Fin l.length) : embed l s (l.get k) = s k := by
  unfold embed
  rw [Finset.sum_eq_single k (fun k' _ hk' => if_neg (fun h => hk' ((List.nodup_iff_injective_get.1 hn) h)))
    (fun h => absurd (mem_univ _) h), if_pos rfl]

theorem embed_off {l : List (Fin P)} (s : Fin l.length → ℝ) (p : Fin P) (hp : p ∉ l) : embed l s p = 0 := by
  unfold embed
  apply Finset.sum_eq_zero
  intro k _
  rw [if_neg]
  rintro rfl
  exact hp (List.get_mem l k)

theorem mulVec_embed (A : Matrix (Fin N) (Fin P) ℝ) (l : List (Fin P)) (s : Fin l.length → ℝ) (i : Fin N) :
    ∑ p, A i p * embed l s p = ∑ k, A.submatrix id l.get i k * s k := by
  unfold embed
  simp only [Finset.mul_sum]
  rw [Finset.sum_comm]
  refine Finset.sum_congr rfl (fun k _ => ?_)
  rw [Finset.sum_eq_single (l.get k) (fun p _ hp => by rw [if_neg (fun h => hp h.symm), mul_zero])
    (fun h => absurd (mem_univ _) h), if_pos rfl]
  rfl

theorem residual_embed (A : Matrix (Fin N) (Fin P) ℝ) (y : Fin N → ℝ) (l : List (Fin P)) (s : Fin l.length → ℝ) (i : Fin N) :
    residual A y (embed l s) i = residual (A.submatrix id l.get) y s i := by
  unfold residual
  rw [mulVec_embed]

theorem rss_embed (A : Matrix (Fin N) (Fin P) ℝ) (y : Fin N → ℝ) (l : List (Fin P)) (s : Fin l.length → ℝ) (t : Finset (Fin N)) :
    rss A y t (embed l s) = rss (A.submatrix id l.get) y t s := by
  unfold rss
  exact Finset.sum_congr rfl (fun i _ => by rw [residual_embed])

theorem embed_restrict (pat : Fin P → Bool) (γ : Fin P → ℝ) (hγ : ∀ p, p ∉ supp pat → γ p = 0) :
    embed (cols pat) (fun k => γ ((cols pat).get k)) = γ := by
  funext p
  by_cases hp : p ∈ cols pat
  · obtain ⟨k, rfl⟩ := List.get_of_mem hp
    rw [embed_get (cols_nodup pat)]
  · rw [embed_off _ _ hp, hγ p]
    rw [mem_supp, ← mem_cols]
    exact hp

theorem embed_supp (pat : Fin P → Bool) (s : Fin (cols pat).length → ℝ) (p : Fin P) (hp : p ∉ supp pat) :
    embed (cols pat) s p = 0 := by
  apply embed_off
  rw [mem_cols, ← mem_supp]
  exact hp

theorem isFit_embed (A : Matrix (Fin N) (Fin P) ℝ) (y : Fin N → ℝ) (pat : Fin P → Bool) (t : Finset (Fin N))
    (s : Fin (cols pat).length → ℝ) (h : IsFit (A.submatrix id (cols pat).get) y t univ s) :
    IsFit A y t (supp pat) (embed (cols pat) s) := by
  refine ⟨embed_supp pat s, fun γ hγ => ?_⟩
  rw [← embed_restrict pat γ hγ, rss_embed, rss_embed]
  exact h.2 _ (fun p hp => absurd (mem_univ p) hp)

theorem determined_embed (A : Matrix (Fin N) (Fin P) ℝ) (pat : Fin P → Bool) (t : Finset (Fin N))
    (h : Determined A t (supp pat)) : Determined (A.submatrix id (cols pat).get) t univ := by
  intro v _ hv
  have := h (embed (cols pat) v) (embed_supp pat v) (fun i hi => by rw [mulVec_embed]; exact hv i hi)
  funext k
  rw [← embed_get (cols_nodup pat) v k, this]
  rfl

theorem isLoo_embed (A : Matrix (Fin N) (Fin P) ℝ) (y : Fin N → ℝ) (pat : Fin P → Bool) (d : Fin N → ℝ)
    (h : IsLoo (A.submatrix id (cols pat).get) y univ d) : IsLoo A y (supp pat) d := by
  intro i
  obtain ⟨β, h1, h2⟩ := h i
  exact ⟨_, isFit_embed A y pat _ β h1, by rw [residual_embed, h2]⟩

theorem isFoldRes_embed (A : Matrix (Fin N) (Fin P) ℝ) (y : Fin N → ℝ) (pat : Fin P → Bool) (fs : List (List (Fin N))) (d : Fin N → ℝ)
    (h : IsFoldRes (A.submatrix id (cols pat).get) y univ fs d) : IsFoldRes A y (supp pat) fs d := by
  intro t ht
  obtain ⟨β, h1, h2⟩ := h t ht
  exact ⟨_, isFit_embed A y pat _ β h1, fun i hi => by rw [residual_embed, h2 i hi]⟩

theorem corrFactor_embed (A : Matrix (Fin N) (Fin P) ℝ) (pat : Fin P → Bool) :
    (N : ℝ) / ((N : ℝ) - (cols pat).length) *
      (1 + ((A.submatrix id (cols pat).get)ᵀ * A.submatrix id (cols pat).get)⁻¹.trace) = corrFactor A (supp pat) := by
  have hmem : ∀ x : Fin P, x ∈ cols pat ↔ x ∈ supp pat := fun x => by rw [mem_cols, mem_supp]
  rw [gram_submatrix A (supp pat) (cols pat).get
    (((cols_nodup pat).getEquiv).trans (Equiv.subtypeEquivRight hmem)) (fun j => rfl)]
  unfold corrFactor
  rw [cols_length]

theorem corrFactor_univ (A : Matrix (Fin N) (Fin P) ℝ) :
    (N : ℝ) / ((N : ℝ) - P) * (1 + (Aᵀ * A)⁻¹.trace) = corrFactor A univ := by
  have := gram_submatrix A univ id (Equiv.subtypeUnivEquiv (fun x => mem_univ x)).symm (fun j => rfl)
  rw [submatrix_id_id] at this
  rw [this]
  unfold corrFactor
  rw [Finset.card_univ, Fintype.card_fin]

/-! ### Error of the full model -/

/-- The correction is applied: asked for, and the triangular factor is not found ill-conditioned. -/
def isCorrected (la : La) (o : Opts) (A : Matrix (Fin N) (Fin P) ℝ) : Bool :=
  o.correction && !(decide (o.solver = .qr) && la.illCond (la.qr A).2)

theorem olsFit_factors (la : La) (o : Opts) (A : Matrix (Fin N) (Fin P) ℝ) (y : Fin N → ℝ) :
    IsFactors la A (olsFit la o A y).2 ∧
      (o.correction = true ∧ illFactors la (olsFit la o A y).2 = false ↔ isCorrected la o A = true) := by
  unfold olsFit isCorrected
  cases o.solver with
  | solve => exact ⟨Or.inl rfl, by simp [solveNormal, illFactors]⟩
  | qr => exact ⟨Or.inr rfl, by simp [solveQr, illFactors]⟩

theorem correction_factor {la : La} (h : LaOk la) (o : Opts) {A : Matrix (Fin N) (Fin P) ℝ} {f : Factors N P}
    (hf : IsFactors la A f) (b : Bool) (hb : o.correction = true ∧ illFactors la f = false ↔ b = true)
    (hA : Determined A univ univ) (hP : P < N) :
    (correction la o f).getD 1 = if b then corrFactor A univ else 1 := by
  rw [correction_eq h o hf hA hP, corrFactor_univ]
  by_cases h1 : o.correction = true ∧ illFactors la f = false
  · rw [if_pos h1, if_pos (hb.1 h1)]
  · rw [if_neg h1, if_neg (fun h2 => h1 (hb.2 h2))]

theorem meanSq_pos_N {y : Fin N → ℝ} (hy : meanSq y ≠ 0) : 0 < N := by
  rcases Nat.eq_zero_or_pos N with h | h
  · subst h; simp [meanSq] at hy
  · exact h

theorem solveOls_cv {la : La} (o : Opts) (A : Matrix (Fin N) (Fin P) ℝ) (y : Fin N → ℝ) (he : o.estimate = true)
    (hk : o.kind ≠ .residuals) (x : Ext × (Fin N → Ext))
    (hx : cvError la o A y (secondMoment y) (olsFit la o A y).1 (olsFit la o A y).2 = .ok x) :
    solveOls la o A y = .ok ((olsFit la o A y).1, some x) := by
  unfold solveOls
  dsimp only
  rw [if_pos he]
  split
  · next h => exact absurd h hk
  · rw [hx]; rfl

theorem effective_ne {o : Opts} {e : ErrType} (h : effective o.kind N = e) (he : e ≠ .residuals) : o.kind ≠ .residuals := by
  intro hk
  rw [hk] at h
  exact he h.symm

/-- **Leave-one-out.** The residuals returned with the error type `leave_out` (or `k_fold` with as many folds as samples) are those of
the models fitted again without each sample, and the error is computed from them. -/
theorem solveOls_leaveOut {la : La} (hla : LaOk la) (o : Opts) (A : Matrix (Fin N) (Fin P) ℝ) (y : Fin N → ℝ)
    (he : o.estimate = true) (hk : effective o.kind N = .leaveOut) (hP : P + 1 ≤ N)
    (hd : ∀ i, Determined A (univ.erase i) univ) (hy : meanSq y ≠ 0) :
    ∃ sol d, IsFit A y univ univ sol ∧ IsLoo A y univ d ∧
      solveOls la o A y = .ok (sol, some (.val (relError A y univ (isCorrected la o A) ((∑ i, d i ^ 2) / N)), fun i => .val (d i))) := by
  have hN := meanSq_pos_N hy
  have hA : Determined A univ univ := (hd ⟨0, hN⟩).mono (Finset.subset_univ _)
  obtain ⟨hf, hc⟩ := olsFit_factors la o A y
  obtain ⟨d, h1, h2⟩ := cv_leaveOut hla o (hf.hatOk hla hA) (olsFit_normal hla o A y) hk hP hd (m := secondMoment y)
    (by rw [secondMoment_eq y hN]; exact hy)
  refine ⟨_, d, (isFit_univ _ _ _).2 (olsFit_normal hla o A y), h1, ?_⟩
  rw [solveOls_cv o A y he (effective_ne hk (by simp)) _ h2, secondMoment_eq y hN,
    correction_factor hla o hf _ hc hA (by omega)]
  rfl

/-- With fewer samples than needed to fit the model without one of them, the error is infinite. -/
theorem solveOls_leaveOut_inf {la : La} (o : Opts) (A : Matrix (Fin N) (Fin P) ℝ) (y : Fin N → ℝ)
    (he : o.estimate = true) (hk : effective o.kind N = .leaveOut) (hP : N < P + 1) :
    ∃ sol, solveOls la o A y = .ok (sol, some (.inf, fun _ => .inf)) := by
  refine ⟨_, solveOls_cv o A y he (effective_ne hk (by simp)) _ ?_⟩
  unfold cvError
  rw [hk]
  dsimp only
  rw [if_pos hP]

/-- When some sample is the only one to determine the coefficients, the error is nan. -/
theorem solveOls_leaveOut_nan {la : La} (hla : LaOk la) (o : Opts) (A : Matrix (Fin N) (Fin P) ℝ) (y : Fin N → ℝ)
    (he : o.estimate = true) (hk : effective o.kind N = .leaveOut) (hP : P + 1 ≤ N) (hA : Determined A univ univ)
    (i : Fin N) (hd : ¬ Determined A (univ.erase i) univ) :
    ∃ sol delta, solveOls la o A y = .ok (sol, some (.nan, delta)) := by
  obtain ⟨hf, _⟩ := olsFit_factors la o A y
  obtain ⟨delta, h1, _⟩ := cv_leaveOut_nan la o (hf.hatOk hla hA) (olsFit_normal hla o A y) hk hP hA i hd (m := secondMoment y)
  exact ⟨_, delta, solveOls_cv o A y he (effective_ne hk (by simp)) _ h1⟩

/-- When the leave-one-out estimate is used: when it is asked for, or a k-fold estimate with as many folds as samples, or
with the default number of folds (the smaller of 10 and the number of samples) and at most ten samples. -/
theorem effective_leaveOut_iff (kind : ErrType) (N : Nat) :
    effective kind N = .leaveOut ↔ kind = .leaveOut ∨ kind = .kFold (some N) ∨ (kind = .kFold none ∧ N ≤ 10) := by
  unfold effective
  match kind with
  | .kFold none =>
    simp only [Option.getD_none, reduceCtorEq, ErrType.kFold.injEq, true_and, false_or]
    rcases Nat.lt_or_ge 10 N with h | h
    · rw [min_eq_left h.le, if_neg (by omega)]; simp; omega
    · rw [min_eq_right h, if_pos rfl]; simp [h]
  | .kFold (some k) =>
    simp only [Option.getD_some, reduceCtorEq, ErrType.kFold.injEq, Option.some.injEq, false_and, or_false, false_or]
    split <;> simp_all
  | .leaveOut => simp
  | .residuals => simp
  | .other => simp

/-- **k-fold.** The residuals are those of the models fitted again without the fold of each sample. -/
theorem solveOls_kFold {la : La} (hla : LaOk la) (o : Opts) (A : Matrix (Fin N) (Fin P) ℝ) (y : Fin N → ℝ)
    (he : o.estimate = true) (k : Nat) (hk : o.kind = .kFold (some k) ∨ (o.kind = .kFold none ∧ k = 10)) (hk2 : 2 ≤ k) (hkN : k < N)
    (hP : (P : ℝ) ≤ (N : ℝ) * (1 - 1 / k)) (hd : ∀ t ∈ la.folds k N, Determined A (t.toFinset)ᶜ univ) (hy : meanSq y ≠ 0) :
    ∃ sol d, IsFit A y univ univ sol ∧ IsFoldRes A y univ (la.folds k N) d ∧
      solveOls la o A y = .ok (sol, some (.val (relError A y univ (isCorrected la o A) (foldMean (la.folds k N) d)),
        fun i => .val (d i))) := by
  have hN := meanSq_pos_N hy
  have hk' : effective o.kind N = .kFold (some k) := by
    rcases hk with hk | ⟨hk, rfl⟩
    · rw [hk]; unfold effective; simp only [Option.getD_some]; rw [if_neg (by omega)]
    · rw [hk]; unfold effective; simp only [Option.getD_none]
      rw [min_eq_left (by omega), if_neg (by omega)]
  obtain ⟨hl, _, _⟩ := hla.folds k N hk2 hkN.le
  have hA : Determined A univ univ := by
    obtain ⟨t, ht⟩ := List.exists_mem_of_length_pos (by omega : 0 < (la.folds k N).length)
    exact (hd t ht).mono (Finset.subset_univ _)
  have hPN : P < N := by
    have h1 : (0 : ℝ) < 1 / k := by
      have : (0 : ℝ) < k := by exact_mod_cast (by omega : 0 < k)
      positivity
    have h2 : (0 : ℝ) < N := by exact_mod_cast hN
    have : (P : ℝ) < N := by nlinarith
    exact_mod_cast this
  obtain ⟨hf, hc⟩ := olsFit_factors la o A y
  obtain ⟨d, h1, h2⟩ := cv_kFold hla o (hf.hatOk hla hA) (olsFit_normal hla o A y) k hk' hk2 hkN.le hP hd (m := secondMoment y)
    (by rw [secondMoment_eq y hN]; exact hy)
  refine ⟨_, d, (isFit_univ _ _ _).2 (olsFit_normal hla o A y), h1, ?_⟩
  rw [solveOls_cv o A y he (effective_ne hk' (by simp)) _ h2, secondMoment_eq y hN,
    correction_factor hla o hf _ hc hA hPN]
  rfl

end Verif.LeastSquares
