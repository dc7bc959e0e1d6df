import Verif.Lemmas.Matricize
import Verif.Model.HsvdDense
import Verif.Lemmas.Shaped
import Verif.Props.Hsvd

/-!
# One step of the truncated singular value decomposition in tree-based format of a dense tensor
-/

namespace Verif.Truncation

open Verif.Arr Finset Verif.TreeBased Verif.DimTree Verif.Projection Verif.FullTensor

theorem setdiffRange_append (N k : Nat) (rep : List Nat) (h : ∀ a ∈ rep, a < N) :
    setdiffRange (N + k) rep = setdiffRange N rep ++ (List.range k).map (· + N) := by
  unfold setdiffRange
  rw [List.range_add, List.filter_append]
  congr 1
  rw [List.filter_eq_self.2, ]
  · apply List.map_congr_left; intro a _; omega
  · intro a ha
    obtain ⟨b, _, rfl⟩ := List.mem_map.1 ha
    simp only [Bool.not_eq_true', List.contains_eq_mem, decide_eq_false_iff_not]
    intro hm; have := h _ hm; omega

theorem entriesOff_app {rep t e : List Nat} (h : ∀ a ∈ rep, a < t.length) : entriesOff rep (t ++ e) = entriesOff rep t ++ e := by
  have e1 : ∀ l : List Nat, entriesOff rep l = applyPerm (setdiffRange l.length rep) l := by
    intro l
    unfold entriesOff applyPerm setdiffRange
    congr 1
    apply List.filter_congr
    intro k _; simp
  rw [e1, e1, List.length_append, setdiffRange_append _ _ _ h, applyPerm_extend (n := t.length)]
  · intro k hk; exact (mem_setdiffRange.1 hk).1
  · rfl

theorem entriesAt_app {rep t e : List Nat} (h : ∀ a ∈ rep, a < t.length) : entriesAt rep (t ++ e) = entriesAt rep t := by
  unfold entriesAt
  apply List.map_congr_left
  intro k hk
  rw [List.getD_append _ _ _ _ (h k hk)]

theorem entriesOff_perm (rep l : List Nat) (N : Nat) (h : l.length = N) : entriesOff rep l = applyPerm (setdiffRange N rep) l := by
  subst h
  unfold entriesOff applyPerm setdiffRange
  congr 1
  apply List.filter_congr
  intro k _; simp

/-- The subscript with the entries `u` at the positions `rep` and the entries `w` at the others. -/
def merge (N : Nat) (rep u w : List Nat) : List Nat := applyPerm (invPerm (rep ++ setdiffRange N rep)) (u ++ w)

/-- Every pair of subscripts of the rows and of the columns comes from a subscript of the tensor. -/
theorem merge_spec {σ rep u w : List Nat} (hnd : rep.Nodup) (hlt : ∀ k ∈ rep, k < σ.length) (hu : InBox (entriesAt rep σ) u)
    (hw : InBox (entriesOff rep σ) w) : InBox σ (merge σ.length rep u w) ∧ entriesAt rep (merge σ.length rep u w) = u ∧
      entriesOff rep (merge σ.length rep u w) = w := by
  have hp := dims_append_perm (n := σ.length) hnd hlt
  have hul : u.length = rep.length := by rw [hu.length_eq]; simp [entriesAt]
  have hwl : w.length = (setdiffRange σ.length rep).length := by
    rw [hw.length_eq, entriesOff_perm rep σ σ.length rfl]; simp [applyPerm]
  have hl : (u ++ w).length = σ.length := by
    rw [List.length_append, hul, hwl, ← List.length_append, perm_len hp]
  set t := merge σ.length rep u w with ht
  have htl : t.length = σ.length := by rw [ht]; simp [merge, perm_len hp]
  have h1 : applyPerm (rep ++ setdiffRange σ.length rep) t = u ++ w := applyPerm_invPerm hp hl
  have h2 : entriesAt rep t ++ entriesOff rep t = u ++ w := by
    rw [← h1, applyPerm_append, entriesOff_perm rep t σ.length htl]; rfl
  obtain ⟨h3, h4⟩ := List.append_inj h2 (by rw [hul]; simp [entriesAt])
  refine ⟨(inBox_applyPerm hp rfl htl).1 ?_, h3, h4⟩
  rw [h1, applyPerm_append, ← entriesOff_perm rep σ σ.length rfl]
  exact (inBox_append (by rw [hu.length_eq]; rfl)).2 ⟨hu, hw⟩

theorem merge_inj {N : Nat} {rep t t' : List Nat} (hnd : rep.Nodup) (hlt : ∀ k ∈ rep, k < N) (h1 : t.length = N) (h2 : t'.length = N)
    (ha : entriesAt rep t = entriesAt rep t') (hb : entriesOff rep t = entriesOff rep t') : t = t' := by
  have hp := dims_append_perm (n := N) hnd hlt
  rw [← invPerm_applyPerm hp h1, ← invPerm_applyPerm hp h2, applyPerm_append, applyPerm_append,
    ← entriesOff_perm rep t N h1, ← entriesOff_perm rep t' N h2]
  show applyPerm _ (entriesAt rep t ++ _) = applyPerm _ (entriesAt rep t' ++ _)
  rw [ha, hb]

theorem inBox_at {σ t : List Nat} (rep : List Nat) (hlt : ∀ k ∈ rep, k < σ.length) (h : InBox σ t) : InBox (entriesAt rep σ) (entriesAt rep t) := by
  rw [inBox_iff_getD] at *
  obtain ⟨h1, h2⟩ := h
  refine ⟨by simp [entriesAt], ?_⟩
  intro k hk
  have hk' : k < rep.length := by simpa [entriesAt] using hk
  unfold entriesAt
  rw [List.getD_eq_getElem _ _ (by simpa using hk'), List.getD_eq_getElem _ _ (by simpa using hk'), List.getElem_map, List.getElem_map]
  exact h2 _ (hlt _ (List.getElem_mem _))

theorem inBox_off {σ t : List Nat} (rep : List Nat) (h : InBox σ t) : InBox (entriesOff rep σ) (entriesOff rep t) := by
  rw [entriesOff_perm rep σ σ.length rfl, entriesOff_perm rep t σ.length h.length_eq]
  exact inBox_at (setdiffRange σ.length rep) (fun k hk => (mem_setdiffRange.1 hk).1) h

theorem sumBox_ravel {s : List Nat} (F : Nat → ℝ) : sumBox s (fun u => F (ravelF s u)) = ∑ i ∈ range s.prod, F i := by
  rw [sumBox_eq_linearF]
  exact sum_congr rfl (fun i hi => by rw [ravelF_unravelF (mem_range.1 hi)])

theorem reshape_pair (M : Arr ℝ) (s : List Nat) (r : Nat) (h : M.shape = [s.prod, r]) :
    ∃ y, FullTensor.reshape M (s ++ [r]) = .ok y ∧ y.shape = s ++ [r] ∧
      ∀ u l, InBox s u → l < r → y.get (u ++ [l]) = M.get [ravelF s u, l] := by
  refine ⟨M.reshapeF (s ++ [r]), ?_, rfl, ?_⟩
  · unfold FullTensor.reshape
    rw [if_pos (by rw [h]; simp)]
  · intro u l hu hl
    show M.get (unravelF M.shape (ravelF (s ++ [r]) (u ++ [l]))) = _
    rw [h, ravelF_append hu.length_eq]
    have : ravelF [r] [l] = l := by simp [ravelF]
    rw [this, unravelF_pair (ravelF_lt hu) hl]

theorem swap_entries (M : Nat) (w : List Nat) (a b : Nat) (hw : w.length = M) :
    entriesAt (List.range M ++ [M + 1, M]) (w ++ [a] ++ [b]) = w ++ [b] ++ [a] := by
  unfold entriesAt
  rw [List.map_append, List.append_assoc, List.append_assoc]
  congr 1
  · rw [← hw]
    apply List.ext_getElem (by simp)
    intro k h1 h2
    simp only [List.getElem_map, List.getElem_range]
    rw [List.getD_append _ _ _ _ h2, List.getD_eq_getElem _ _ h2]
  · show [(w ++ ([a] ++ [b])).getD (M + 1) 0, (w ++ ([a] ++ [b])).getD M 0] = [b] ++ [a]
    subst hw
    simp

/-- The two factors of the decomposition of a tensor of shape `σ ++ E`. -/
structure SplitOk (cur : Arr ℝ) (σ E rep : List Nat) (u y : Arr ℝ) (r : Nat) (tail : ℝ) : Prop where
  ushape : u.shape = entriesAt rep σ ++ [r]
  yshape : y.shape = entriesOff rep σ ++ [r] ++ E
  pos : 1 ≤ r
  orth : ∀ l l', l < r → l' < r →
    sumBox (entriesAt rep σ) (fun a => u.get (a ++ [l]) * u.get (a ++ [l'])) = if l = l' then 1 else 0
  val : ∀ w l e, InBox (entriesOff rep σ) w → l < r → InBox E e →
    y.get (w ++ [l] ++ e) = sumBox (entriesAt rep σ) (fun a => u.get (a ++ [l]) * cur.get (merge σ.length rep a w ++ e))
  tail_nonneg : 0 ≤ tail
  norm : nsq cur.shape cur.get = nsq y.shape y.get + tail

theorem hsvdSplit_spec (svd : Svd) (hsvd : SvdOk svd) (t : Truncator) (ht : t.param = none ∨ t.param = some 0)
    (R : Option Nat) (hR0 : R ≠ some 0) (tol : ℝ) (cur : Arr ℝ) (σ E rep : List Nat) (hE : E.length ≤ 1)
    (hsh : cur.shape = σ ++ E) (hpos : ∀ n ∈ cur.shape, 0 < n) (hnd : rep.Nodup) (hlt : ∀ k ∈ rep, k < σ.length) :
    ∃ u y r tail, hsvdSplit svd t R tol (E.length == 1) cur σ.length rep = .ok (u, y) ∧ SplitOk cur σ E rep u y r tail ∧
      (∀ q, R = some q → r ≤ q) ∧ (R = none → 0 ≤ tol → tail ≤ tol ^ 2 * nsq cur.shape cur.get) := by
  have hlt' : ∀ k ∈ rep, k < cur.shape.length := fun k hk => by rw [hsh, List.length_append]; have := hlt k hk; omega
  obtain ⟨A, a1, a2, a3⟩ := FullTensor.matricize_default cur rep hnd hlt'
  have hat : entriesAt rep cur.shape = entriesAt rep σ := by rw [hsh, entriesAt_app hlt]
  have hoff : entriesOff rep cur.shape = entriesOff rep σ ++ E := by rw [hsh, entriesOff_app hlt]
  rw [hat, hoff] at a2 a3
  set m := (entriesAt rep σ).prod with hm
  set n := (entriesOff rep σ ++ E).prod with hn
  have hm0 : 0 < m := by
    rw [hm, ← hat]
    apply List.prod_pos
    intro v hv
    unfold entriesAt at hv
    obtain ⟨j, hj, rfl⟩ := List.mem_map.1 hv
    rw [List.getD_eq_getElem _ _ (hlt' j hj)]; exact hpos _ (List.getElem_mem _)
  have hn0 : 0 < n := by
    rw [hn, ← hoff]
    apply List.prod_pos
    intro v hv
    unfold entriesOff at hv
    obtain ⟨j, hj, rfl⟩ := List.mem_map.1 hv
    have hjl : j < cur.shape.length := List.mem_range.1 (List.mem_filter.1 hj).1
    rw [List.getD_eq_getElem _ _ hjl]; exact hpos _ (List.getElem_mem _)
  obtain ⟨ind, r, b1, b2, b3, b4, b5⟩ := truncSvd_data svd hsvd { t with maxRank := R } ht A m n a2 hm0 hn0 tol 2 (by omega)
  have hS := hsvd A m n a2 hm0 hn0
  obtain ⟨c1, c2, c3, c4⟩ := hS.leftOk ind r b2
  set U := leftCols (svd A).1 ind with hU
  obtain ⟨u, u1, u2, u3⟩ := reshape_pair U (entriesAt rep σ) r c1.shape
  set B := scaleCols (rightRows (svd A).2.2 ind) ((svd A).2.1.take ind) with hB
  have hBs : B.shape = [(entriesOff rep σ ++ E).prod, r] := by
    rw [hB]; unfold scaleCols; rw [c3, c4]; rfl
  obtain ⟨y0, y1, y2, y3⟩ := reshape_pair B (entriesOff rep σ ++ E) r hBs
  have hBg : ∀ j l, j < n → l < r → B.get [j, l] = ∑ i ∈ range m, U.get [i, l] * A.get [i, j] := fun j l hj hl => c2 j l hj hl
  -- the exchange of the last axes
  have hmove : ∃ y, moveRank (E.length == 1) y0 = .ok y ∧ y.shape = entriesOff rep σ ++ [r] ++ E ∧
      ∀ w l e, InBox (entriesOff rep σ) w → l < r → InBox E e → y.get (w ++ [l] ++ e) = y0.get (w ++ e ++ [l]) := by
    match E, hE with
    | [], _ => exact ⟨y0, rfl, by rw [y2]; simp, fun w l e _ _ he => by
        have : e = [] := by simpa using he.length_eq
        subst this; simp⟩
    | [K], _ =>
      have hyl : y0.order = (entriesOff rep σ).length + 2 := by
        show y0.shape.length = _
        rw [y2]; simp
      set M := (entriesOff rep σ).length with hM
      have hperm : (List.range M ++ [M + 1, M]).Perm (List.range (M + 2)) := by
        rw [List.range_succ, List.range_succ, List.append_assoc]
        exact List.Perm.append_left _ (List.Perm.swap _ _ _)
      obtain ⟨y, e1, e2, e3, _⟩ := FullTensor.transpose_spec y0 (List.range M ++ [M + 1, M]) (by rw [hyl]; exact hperm)
      have hap := swap_entries M
      refine ⟨y, ?_, ?_, ?_⟩
      · show FullTensor.transposeT y0 (List.range (y0.order - 2) ++ [y0.order - 1, y0.order - 2]) = _
        rw [hyl]
        exact e1
      · rw [e2, y2]
        have := hap (entriesOff rep σ) K r rfl
        simpa using this
      · intro w l e hw hl he
        have hel : e.length = 1 := he.length_eq
        obtain ⟨e0, rfl⟩ := List.length_eq_one_iff.1 hel
        have hbox : InBox y0.shape (w ++ [e0] ++ [l]) := by
          rw [y2]
          refine (inBox_append (by rw [List.length_append, List.length_append, hw.length_eq]; rfl)).2 ⟨(inBox_append hw.length_eq).2 ⟨hw, he⟩, by simpa using hl⟩
        have := (e3 _ hbox).2
        rw [hap w e0 l hw.length_eq] at this
        exact this
  obtain ⟨y, z1, z2, z3⟩ := hmove
  have hval : ∀ w l e, InBox (entriesOff rep σ) w → l < r → InBox E e →
      y.get (w ++ [l] ++ e) = B.get [ravelF (entriesOff rep σ ++ E) (w ++ e), l] := by
    intro w l e hw hl he
    rw [z3 w l e hw hl he, y3 (w ++ e) l ((inBox_append hw.length_eq).2 ⟨hw, he⟩) hl]
  have htail : 0 ≤ (((svd A).2.1.drop r).map (· ^ 2)).sum := by
    apply List.sum_nonneg
    intro v hv
    obtain ⟨q, _, rfl⟩ := List.mem_map.1 hv
    exact sq_nonneg q
  have hnc : nsq cur.shape cur.get = sqSum m n (fun i j => A.get [i, j]) := by
    unfold nsq sqSum
    have := matSum cur.shape rep hnd hlt' (fun i j => A.get [i, j] ^ 2)
    rw [hat, hoff] at this
    rw [← this]
    apply sumBox_congr
    intro i hi
    beta_reduce
    rw [a3 i hi]; ring
  refine ⟨u, y, r, _, ?_, ⟨u2, z2, b4 hR0, ?_, ?_, htail, ?_⟩, b3, ?_⟩
  · unfold hsvdSplit
    have hax : applyPerm (setdiffRange σ.length rep ++ if (E.length == 1) = true then [cur.order - 1] else []) cur.shape =
        entriesOff rep σ ++ E := by
      rw [← hoff, entriesOff_perm rep cur.shape _ rfl, hsh, List.length_append, setdiffRange_append _ _ _ hlt]
      congr 2
      have hco : cur.order = σ.length + E.length := by
        show cur.shape.length = _
        rw [hsh, List.length_append]
      match E, hE with
      | [], _ => rfl
      | [K], _ => simp [hco]
    have hat' : applyPerm rep cur.shape = entriesAt rep σ := hat
    simp only [a1, b1, bind, Except.bind, hax, hat']
    have hr : U.shape.getD 1 0 = r := by rw [c1.shape]; rfl
    simp only [List.getD_cons_zero, List.getD_cons_succ, ← hB, hr, u1, y1, z1]
  · intro l l' hl hl'
    rw [← c1.orth l l' hl hl', hm, ← sumBox_ravel]
    apply sumBox_congr
    intro a ha
    rw [u3 a l ha hl, u3 a l' ha hl']
  · intro w l e hw hl he
    rw [hval w l e hw hl he, hBg _ _ (ravelF_lt ((inBox_append hw.length_eq).2 ⟨hw, he⟩)) hl, hm, ← sumBox_ravel]
    apply sumBox_congr
    intro a ha
    obtain ⟨g1, g2, g3⟩ := merge_spec hnd hlt ha hw
    rw [u3 a l ha hl]
    congr 1
    have hml : ∀ k ∈ rep, k < (merge σ.length rep a w).length := by rw [g1.length_eq]; exact hlt
    have := a3 (merge σ.length rep a w ++ e) (by rw [hsh]; exact (inBox_append g1.length_eq).2 ⟨g1, he⟩)
    rw [entriesAt_app hml, entriesOff_app hml, g2, g3] at this
    exact this
  · rw [hnc, c1.split]
    congr 1
    unfold nsq
    rw [z2, List.append_assoc, sumBox_append]
    have h1 : sumBox (entriesOff rep σ) (fun w => sumBox ([r] ++ E) (fun v => y.get (w ++ v) * y.get (w ++ v))) =
        sumBox (entriesOff rep σ) (fun w => sumBox E (fun e => ∑ l ∈ range r, B.get [ravelF (entriesOff rep σ ++ E) (w ++ e), l] ^ 2)) := by
      apply sumBox_congr
      intro w hw
      rw [sumBox_append, sumBox_singleton]
      have := sum_sumBox_comm (range r) E (fun l e => y.get (w ++ [l] ++ e) * y.get (w ++ [l] ++ e))
      simp only [List.append_assoc] at this ⊢
      rw [this]
      apply sumBox_congr
      intro e he
      refine sum_congr rfl (fun l hl => ?_)
      have := hval w l e hw (mem_range.1 hl) he
      rw [List.append_assoc] at this
      rw [this, pow_two]
    rw [h1, ← sumBox_append (entriesOff rep σ) E (fun v => ∑ l ∈ range r, B.get [ravelF (entriesOff rep σ ++ E) v, l] ^ 2),
      sumBox_ravel (s := entriesOff rep σ ++ E) (fun j => ∑ l ∈ range r, B.get [j, l] ^ 2), sum_comm]
    refine sum_congr rfl (fun l hl => sum_congr rfl (fun j hj => ?_))
    rw [hBg l j (mem_range.1 hl) (mem_range.1 hj)]
  · intro h1 h2
    have := b5 h1 h2
    rw [hnc, hS.sqSum]
    have hSS : ∑ l ∈ range (min m n), (svd A).2.1.getD l 0 ^ 2 = ((svd A).2.1.map (· ^ 2)).sum := by
      have := sum_drop_eq (svd A).2.1 2 0 (by omega)
      simp only [List.drop_zero, Nat.not_lt_zero, if_false] at this
      rw [this, hS.len]
    rw [hSS]; exact this


/-- The product over the nodes `ns` of the functions `φ` at the subscripts `t`. -/
def axP (φ : Nat → List Nat → Nat → ℝ) (ns p t : List Nat) : ℝ := (List.zipWith (fun j a => φ j p a) ns t).prod

theorem axP_eq (φ : Nat → List Nat → Nat → ℝ) (ns p t : List Nat) (h : t.length = ns.length) :
    axP φ ns p t = ((List.range ns.length).map (fun k => φ (ns.getD k 0) p (t.getD k 0))).prod := by
  unfold axP
  congr 1
  apply List.ext_getElem (by simp [h])
  intro k h1 h2
  have hk : k < ns.length := by simpa using h2
  simp only [List.getElem_zipWith, List.getElem_map, List.getElem_range]
  rw [List.getD_eq_getElem _ _ hk, List.getD_eq_getElem _ _ (by omega)]

theorem axP_map (φ : Nat → List Nat → Nat → ℝ) (l ns p t : List Nat) :
    axP φ (l.map (fun k => ns.getD k 0)) p (l.map (fun k => t.getD k 0)) = (l.map (fun k => φ (ns.getD k 0) p (t.getD k 0))).prod := by
  unfold axP
  congr 1
  rw [List.zipWith_map, List.zipWith_self]

theorem axP_split (φ : Nat → List Nat → Nat → ℝ) {rep ns t : List Nat} (p : List Nat) (hnd : rep.Nodup)
    (hlt : ∀ k ∈ rep, k < ns.length) (h : t.length = ns.length) :
    axP φ ns p t = axP φ (entriesAt rep ns) p (entriesAt rep t) * axP φ (entriesOff rep ns) p (entriesOff rep t) := by
  rw [axP_eq φ ns p t h, entriesOff_perm rep ns _ rfl, entriesOff_perm rep t ns.length h]
  unfold entriesAt applyPerm
  rw [axP_map, axP_map, ← List.prod_append, ← List.map_append]
  exact (List.Perm.prod_eq ((dims_append_perm hnd hlt).map _)).symm

theorem axP_append (φ : Nat → List Nat → Nat → ℝ) (n1 n2 p t1 t2 : List Nat) (h : t1.length = n1.length) :
    axP φ (n1 ++ n2) p (t1 ++ t2) = axP φ n1 p t1 * axP φ n2 p t2 := by
  unfold axP
  rw [List.zipWith_append h.symm, List.prod_append]

theorem axP_congr {φ φ' : Nat → List Nat → Nat → ℝ} {ns p t : List Nat} (h : ∀ j ∈ ns, φ j = φ' j) : axP φ ns p t = axP φ' ns p t := by
  induction ns generalizing t with
  | nil => rfl
  | cons a ns ih =>
    cases t with
    | nil => rfl
    | cons b t =>
      have h1 := ih (t := t) (fun j hj => h j (by simp [hj]))
      unfold axP at h1 ⊢
      simp only [List.zipWith_cons_cons, List.prod_cons]
      rw [h1, h a (by simp)]

/-- The tensor `cur`, of axes the nodes `ns` with sizes `sz`, contains the scalar products of `x` with the products of the
functions `φ`, which are orthonormal. -/
structure Iso (x : Arr ℝ) (s E : List Nat) (cur : Arr ℝ) (ns : List Nat) (φ : Nat → List Nat → Nat → ℝ) (sz : Nat → Nat) : Prop where
  shape : cur.shape = ns.map sz ++ E
  pos : ∀ j ∈ ns, 0 < sz j
  val : ∀ t e, InBox (ns.map sz) t → InBox E e → cur.get (t ++ e) = sumBox s (fun p => x.get (p ++ e) * axP φ ns p t)
  iso : ∀ t t', InBox (ns.map sz) t → InBox (ns.map sz) t' →
    sumBox s (fun p => axP φ ns p t * axP φ ns p t') = if t = t' then 1 else 0

theorem map_entriesAt (f : Nat → Nat) (rep ns : List Nat) (h : ∀ k ∈ rep, k < ns.length) :
    (entriesAt rep ns).map f = entriesAt rep (ns.map f) := by
  unfold entriesAt
  rw [List.map_map]
  apply List.map_congr_left
  intro k hk
  rw [Function.comp_apply, List.getD_eq_getElem _ _ (h k hk), List.getD_eq_getElem _ _ (by simpa using h k hk), List.getElem_map]

theorem map_entriesOff (f : Nat → Nat) (rep ns : List Nat) : (entriesOff rep ns).map f = entriesOff rep (ns.map f) := by
  rw [entriesOff_perm rep ns _ rfl, entriesOff_perm rep (ns.map f) ns.length (by simp)]
  exact map_entriesAt f _ ns (fun k hk => (mem_setdiffRange.1 hk).1)

theorem Iso.step {x cur : Arr ℝ} {s E ns : List Nat} {φ : Nat → List Nat → Nat → ℝ} {sz : Nat → Nat}
    (h : Iso x s E cur ns φ sz) {rep : List Nat} (hnd : rep.Nodup) (hlt : ∀ k ∈ rep, k < ns.length) {u y : Arr ℝ} {r : Nat} {tail : ℝ}
    (hs : SplitOk cur (ns.map sz) E rep u y r tail) (nod : Nat) (hn : nod ∉ entriesOff rep ns) :
    Iso x s E y (entriesOff rep ns ++ [nod])
      (fun j => if j = nod then fun p l => sumBox ((entriesAt rep ns).map sz) (fun a => u.get (a ++ [l]) * axP φ (entriesAt rep ns) p a) else φ j)
      (fun j => if j = nod then r else sz j) := by
  set φ' : Nat → List Nat → Nat → ℝ := (fun j => if j = nod then fun p l => sumBox ((entriesAt rep ns).map sz)
    (fun a => u.get (a ++ [l]) * axP φ (entriesAt rep ns) p a) else φ j) with hφ
  set sz' : Nat → Nat := (fun j => if j = nod then r else sz j) with hsz
  have hlt' : ∀ k ∈ rep, k < (ns.map sz).length := by simpa using hlt
  have m1 : (entriesOff rep ns).map sz' = entriesOff rep (ns.map sz) := by
    rw [← map_entriesOff]
    apply List.map_congr_left
    intro j hj
    exact if_neg (fun e : j = nod => hn (e ▸ hj))
  have m2 : (entriesOff rep ns ++ [nod]).map sz' = entriesOff rep (ns.map sz) ++ [r] := by
    rw [List.map_append, m1, hsz]; simp
  have m3 : (entriesAt rep ns).map sz = entriesAt rep (ns.map sz) := map_entriesAt sz rep ns hlt
  have hlen : (ns.map sz).length = ns.length := by simp
  have hax : ∀ p w l, InBox (entriesOff rep (ns.map sz)) w → axP φ' (entriesOff rep ns ++ [nod]) p (w ++ [l]) =
      sumBox (entriesAt rep (ns.map sz)) (fun a => u.get (a ++ [l]) * axP φ ns p (merge ns.length rep a w)) := by
    intro p w l hw
    have hwl : w.length = (entriesOff rep ns).length := by rw [hw.length_eq, ← map_entriesOff]; simp
    rw [axP_append _ _ _ _ _ _ hwl, axP_congr (φ := φ') (φ' := φ) (fun j hj => by
      exact if_neg (fun e : j = nod => hn (e ▸ hj)))]
    have e1 : axP φ' [nod] p [l] = sumBox ((entriesAt rep ns).map sz) (fun a => u.get (a ++ [l]) * axP φ (entriesAt rep ns) p a) := by
      have f1 : axP φ' [nod] p [l] = φ' nod p l := by simp [axP]
      rw [f1, hφ]
      simp only [if_true]
    rw [e1, m3, ← sumBox_mul_left]
    apply sumBox_congr
    intro a ha
    obtain ⟨g1, g2, g3⟩ := merge_spec hnd hlt' ha hw
    rw [hlen] at g1 g2 g3
    rw [axP_split φ p hnd hlt (g1.length_eq.trans hlen), g2, g3]
    ring
  have hsplit : ∀ t, InBox ((entriesOff rep ns ++ [nod]).map sz') t → ∃ w l, t = w ++ [l] ∧ InBox (entriesOff rep (ns.map sz)) w ∧ l < r := by
    intro t ht
    rw [m2] at ht
    obtain ⟨w, v, rfl, hw, hv⟩ := inBox_append_split ht
    obtain ⟨l, rfl, hl⟩ := inBox_single hv
    exact ⟨w, l, rfl, hw, hl⟩
  refine ⟨by rw [hs.yshape, m2], ?_, ?_, ?_⟩
  · intro j hj
    rw [hsz]
    dsimp only
    split
    · exact hs.pos
    · rename_i hne
      rcases List.mem_append.1 hj with hj | hj
      · refine h.pos j ?_
        rw [entriesOff_perm rep ns _ rfl] at hj
        obtain ⟨k, hk, rfl⟩ := List.mem_map.1 hj
        have := (mem_setdiffRange.1 hk).1
        rw [List.getD_eq_getElem _ _ this]; exact List.getElem_mem _
      · simp at hj; exact absurd hj hne
  · intro t e ht he
    obtain ⟨w, l, rfl, hw, hl⟩ := hsplit t ht
    rw [hs.val w l e hw hl he]
    have e1 : sumBox (entriesAt rep (ns.map sz)) (fun a => u.get (a ++ [l]) * cur.get (merge (ns.map sz).length rep a w ++ e)) =
        sumBox (entriesAt rep (ns.map sz)) (fun a => sumBox s (fun p => u.get (a ++ [l]) * (x.get (p ++ e) * axP φ ns p (merge ns.length rep a w)))) := by
      apply sumBox_congr
      intro a ha
      obtain ⟨g1, g2, g3⟩ := merge_spec hnd hlt' ha hw
      rw [h.val _ e g1 he, sumBox_mul_left, hlen]
    rw [e1, sumBox_comm]
    apply sumBox_congr
    intro p _
    rw [hax p w l hw, ← sumBox_mul_left]
    apply sumBox_congr
    intro a _
    ring
  · intro t t' ht ht'
    obtain ⟨w, l, rfl, hw, hl⟩ := hsplit t ht
    obtain ⟨w', l', rfl, hw', hl'⟩ := hsplit t' ht'
    have e1 : sumBox s (fun p => axP φ' (entriesOff rep ns ++ [nod]) p (w ++ [l]) * axP φ' (entriesOff rep ns ++ [nod]) p (w' ++ [l'])) =
        sumBox (entriesAt rep (ns.map sz)) (fun a => sumBox (entriesAt rep (ns.map sz)) (fun b => u.get (a ++ [l]) * u.get (b ++ [l']) *
          (if merge ns.length rep a w = merge ns.length rep b w' then 1 else 0))) := by
      have f1 : ∀ p, axP φ' (entriesOff rep ns ++ [nod]) p (w ++ [l]) * axP φ' (entriesOff rep ns ++ [nod]) p (w' ++ [l']) =
          sumBox (entriesAt rep (ns.map sz)) (fun a => sumBox (entriesAt rep (ns.map sz)) (fun b => u.get (a ++ [l]) * u.get (b ++ [l']) *
            (axP φ ns p (merge ns.length rep a w) * axP φ ns p (merge ns.length rep b w')))) := by
        intro p
        rw [hax p w l hw, hax p w' l' hw', ← sumBox_mul_right]
        apply sumBox_congr
        intro a _
        rw [← sumBox_mul_left]
        apply sumBox_congr
        intro b _
        ring
      simp only [f1]
      rw [sumBox_comm]
      apply sumBox_congr
      intro a ha
      rw [sumBox_comm]
      apply sumBox_congr
      intro b hb
      rw [sumBox_mul_left]
      obtain ⟨g1, -, -⟩ := merge_spec hnd hlt' ha hw
      obtain ⟨g1', -, -⟩ := merge_spec hnd hlt' hb hw'
      rw [hlen] at g1 g1'
      rw [h.iso _ _ g1 g1']
    rw [e1]
    have hm : ∀ a b, InBox (entriesAt rep (ns.map sz)) a → InBox (entriesAt rep (ns.map sz)) b →
        (merge ns.length rep a w = merge ns.length rep b w' ↔ a = b ∧ w = w') := by
      intro a b ha hb
      obtain ⟨g1, g2, g3⟩ := merge_spec hnd hlt' ha hw
      obtain ⟨k1, k2, k3⟩ := merge_spec hnd hlt' hb hw'
      rw [hlen] at g1 g2 g3 k1 k2 k3
      constructor
      · intro e
        rw [e] at g2 g3
        exact ⟨g2.symm.trans k2, g3.symm.trans k3⟩
      · rintro ⟨rfl, rfl⟩; rfl
    by_cases hww : w = w'
    · subst hww
      have e2 : sumBox (entriesAt rep (ns.map sz)) (fun a => sumBox (entriesAt rep (ns.map sz)) (fun b => u.get (a ++ [l]) * u.get (b ++ [l']) *
          (if merge ns.length rep a w = merge ns.length rep b w then (1 : ℝ) else 0))) =
          sumBox (entriesAt rep (ns.map sz)) (fun a => u.get (a ++ [l]) * u.get (a ++ [l'])) := by
        apply sumBox_congr
        intro a ha
        rw [← sumBox_pick ha (fun b => u.get (a ++ [l]) * u.get (b ++ [l']))]
        apply sumBox_congr
        intro b hb
        have := hm a b ha hb
        simp only [and_true] at this
        simp only [this]
      rw [e2, hs.orth l l' hl hl']
      simp
    · rw [if_neg (fun e : w ++ [l] = w' ++ [l'] => hww (List.append_inj_left' e rfl))]
      refine (sumBox_congr (fun a ha => ?_)).trans (sumBox_zero (R := ℝ) (entriesAt rep (ns.map sz)))
      refine (sumBox_congr (fun b hb => ?_)).trans (sumBox_zero (R := ℝ) (entriesAt rep (ns.map sz)))
      rw [if_neg (fun e => hww ((hm a b ha hb).1 e).2), mul_zero]

end Verif.Truncation
