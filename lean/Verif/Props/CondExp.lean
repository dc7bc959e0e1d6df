import Verif.Model.CondExp
import Verif.Props.FunctionalTensor
import Verif.Props.TreeVector

/-! Conditional expectations of functional tensors. -/

namespace Verif
namespace FunctionalTensor

open Arr TreeBased Bases Finset

variable {K : Type}

/-! ### sums over a part of the axes -/

theorem entriesOff_subst' (idx dims u : List Nat) : entriesOff dims (subst idx dims u) = entriesOff dims idx := by
  unfold entriesOff
  rw [FullTensor.subst_length]
  apply List.map_congr_left
  intro k hk
  rw [List.mem_filter, List.mem_range, decide_eq_true_eq] at hk
  rw [FullTensor.getD_subst _ _ _ _ hk.1, if_neg hk.2]

theorem entriesAt_subst {idx dims u : List Nat} (hnd : dims.Nodup) (hlt : ∀ k ∈ dims, k < idx.length) (hu : u.length = dims.length) :
    entriesAt dims (subst idx dims u) = u := by
  unfold entriesAt
  apply List.ext_getElem (by simp [hu])
  intro i h1 h2
  have hi : i < dims.length := by simpa using h1
  rw [List.getElem_map, FullTensor.getD_subst _ _ _ _ (hlt _ (List.getElem_mem hi)), if_pos (List.getElem_mem hi),
    hnd.idxOf_getElem, List.getD_eq_getElem _ _ h2]

/-- If `Y` sums `F` over the axes `dims`, then the sum of `Y` is the sum of `F`. -/
theorem sumBox_off [AddCommMonoid K] {s dims : List Nat} (hnd : dims.Nodup) (hlt : ∀ k ∈ dims, k < s.length)
    (hpos : ∀ k ∈ dims, 0 < s.getD k 0) (Y F : List Nat → K)
    (h : ∀ idx, InBox s idx → Y (entriesOff dims idx) = sumBox (entriesAt dims s) (fun u => F (subst idx dims u))) :
    sumBox (entriesOff dims s) Y = sumBox s F := by
  have hp := dims_append_perm' (n := s.length) hnd hlt
  have hl := List.Perm.length_eq hp
  have hap : ∀ v : List Nat, v.length = s.length →
      applyPerm (FullTensor.setdiffRange s.length dims ++ dims) v = entriesOff dims v ++ entriesAt dims v := by
    intro v hv
    rw [Truncation.entriesOff_perm _ _ _ hv]
    unfold applyPerm entriesAt
    rw [List.map_append]
  have hinv := fun v (hv : v.length = s.length) => invPerm_applyPerm hp (v := v) hv
  have h1 := sumBox_applyPerm hp (s := s) rfl (fun w => F (applyPerm (invPerm (FullTensor.setdiffRange s.length dims ++ dims)) w))
  rw [hap s rfl, sumBox_append] at h1
  have h2 : sumBox s (fun v => F (applyPerm (invPerm (FullTensor.setdiffRange s.length dims ++ dims))
      (applyPerm (FullTensor.setdiffRange s.length dims ++ dims) v))) = sumBox s F :=
    sumBox_congr (fun v hv => by rw [hinv v hv.length_eq])
  rw [← h2, h1]
  apply sumBox_congr
  intro j hj
  obtain ⟨idx, hi, rfl⟩ := Sparse.exists_entriesOff hnd hlt hpos hj
  rw [h idx hi]
  apply sumBox_congr
  intro u hu
  have hul : u.length = dims.length := by rw [hu.length_eq]; simp [entriesAt]
  have hsl : (subst idx dims u).length = s.length := by rw [FullTensor.subst_length, hi.length_eq]
  rw [← hinv (subst idx dims u) hsl, hap _ hsl, entriesOff_subst', entriesAt_subst hnd (fun k hk => by rw [hi.length_eq]; exact hlt k hk) hul]

/-! ### the kept dimensions -/

theorem sorted_idx_setdiff {D : Nat} {ds : List Nat} (hs : ds.Pairwise (· < ·)) (hlt : ∀ k ∈ ds, k < D) :
    FullTensor.setdiffRange D (FullTensor.setdiffRange D ds) = ds := by
  apply List.Perm.eq_of_pairwise (le := (· < ·))
  · intro a b _ _ h1 h2; omega
  · exact (List.pairwise_lt_range).filter _
  · exact hs
  · rw [List.perm_ext_iff_of_nodup]
    · intro k
      rw [mem_setdiffRange, mem_setdiffRange]
      constructor
      · rintro ⟨h1, h2⟩
        by_contra hn
        exact h2 ⟨h1, hn⟩
      · intro h
        exact ⟨hlt k h, fun h' => h'.2 h⟩
    · exact List.nodup_range.filter _
    · exact hs.imp (fun h => Nat.ne_of_lt h)

theorem sort_lt {dims : List Nat} (hnd : dims.Nodup) : (dims.insertionSort (· ≤ ·)).Pairwise (· < ·) := by
  have h1 := List.pairwise_insertionSort (· ≤ ·) dims
  have h2 : (dims.insertionSort (· ≤ ·)).Nodup := (List.perm_insertionSort (· ≤ ·) dims).nodup_iff.2 hnd
  exact (List.Pairwise.and h1 h2).imp (fun ⟨a, b⟩ => lt_of_le_of_ne a b)

/-- The contraction of the coefficients `a` with the basis functions of the variables `dims` at `p` (in increasing order of
dimension), and with the means of the bases in the other dimensions. -/
def condValue [CommSemiring K] (a : Arr K) (bs : List (Basis K)) (M : List (Nat → K)) (ds : List Nat) (p : List (List K)) : K :=
  sumBox a.shape (fun idx => a.get idx * ∏ d ∈ range bs.length,
    if d ∈ ds then (bs.getD d ⟨0, 0, fun _ _ => 0⟩).fn (p.getD (ds.idxOf d) []) (idx.getD d 0)
    else M.getD d (fun _ => 0) (idx.getD d 0))

/-- The bases of the dimensions `ds`. -/
def keptBases [Zero K] (bs : List (Basis K)) (ds : List Nat) : List (Basis K) := ds.map (fun d => bs.getD d ⟨0, 0, fun _ _ => 0⟩)

theorem prod_range_list {α : Type} [CommMonoid α] (l : List Nat) (h : Nat → α) (n : Nat) (hn : n = l.length) :
    (l.map h).prod = ∏ i ∈ range n, h (l.getD i 0) := by
  subst hn
  induction l with
  | nil => simp
  | cons c l ih =>
    rw [List.map_cons, List.prod_cons, List.length_cons, prod_range_succ', ih, mul_comm]
    rfl

/-- The dense contraction with the means of the other bases. -/
theorem contraction [CommSemiring K] (a : Arr K) (bs : List (Basis K)) (hc : a.shape = bs.map Basis.card)
    (hcard : ∀ b ∈ bs, 0 < b.card) (M : List (Nat → K)) (ds : List Nat) (hs : ds.Pairwise (· < ·)) (hlt : ∀ k ∈ ds, k < bs.length) :
    ∃ b, FullTensor.tensorVectorProduct a ((FullTensor.setdiffRange bs.length ds).map (meanVec bs M))
        (some (FullTensor.setdiffRange bs.length ds)) = .ok b ∧
      b.shape = (keptBases bs ds).map Basis.card ∧ b.shape = entriesOff (FullTensor.setdiffRange bs.length ds) a.shape ∧
      ∀ p, value b (keptBases bs ds) p = condValue a bs M ds p := by
  obtain ⟨rest, hrest⟩ : ∃ rest, rest = FullTensor.setdiffRange bs.length ds := ⟨_, rfl⟩
  rw [← hrest]
  have hl : a.shape.length = bs.length := by rw [hc]; simp
  have hnd : rest.Nodup := by rw [hrest]; exact List.nodup_range.filter _
  have hrl : ∀ k ∈ rest, k < bs.length := fun k hk => by rw [hrest] at hk; exact (mem_setdiffRange.1 hk).1
  have hcd : ∀ d, d < bs.length → a.shape.getD d 0 = (bs.getD d ⟨0, 0, fun _ _ => 0⟩).card := by
    intro d hd
    rw [hc, List.getD_eq_getElem (bs.map _) _ (by simpa using hd), List.getElem_map, List.getD_eq_getElem bs _ hd]
  obtain ⟨b, b1, b2, b3⟩ := FullTensor.tensorVectorProduct_spec a (rest.map (meanVec bs M)) rest hnd (by
    rw [List.forall₂_map_left_iff, List.forall₂_same]
    intro d hd
    exact ⟨by unfold Arr.order; rw [hl]; exact hrl d hd, by rw [hcd d (hrl d hd)]; rfl⟩)
  have hoff : ∀ v : List Nat, v.length = bs.length → entriesOff rest v = entriesAt ds v := by
    intro v hv
    rw [Truncation.entriesOff_perm _ _ _ hv, hrest, sorted_idx_setdiff hs hlt]
    rfl
  refine ⟨b, b1, ?_, b2, fun p => ?_⟩
  · rw [b2, hoff _ hl]
    unfold entriesAt keptBases
    rw [List.map_map]
    exact List.map_congr_left (fun d hd => hcd d (hlt d hd))
  · unfold value condValue
    rw [b2]
    apply sumBox_off hnd (fun k hk => by rw [hl]; exact hrl k hk) (fun k hk => by
      rw [hcd k (hrl k hk), List.getD_eq_getElem bs _ (hrl k hk)]; exact hcard _ (List.getElem_mem _))
    intro idx hi
    have hil : idx.length = bs.length := by rw [hi.length_eq, hl]
    rw [b3 idx hi, ← sumBox_mul_right]
    apply sumBox_congr
    intro u hu
    have hul : u.length = rest.length := by rw [hu.length_eq]; simp [entriesAt]
    rw [mul_assoc]
    congr 1
    obtain ⟨v, hv⟩ : ∃ v, v = subst idx rest u := ⟨_, rfl⟩
    have hvl : v.length = bs.length := by rw [hv, FullTensor.subst_length, hil]
    have hu' : u = entriesAt rest v := by rw [hv, entriesAt_subst hnd (fun k hk => by rw [hil]; exact hrl k hk) hul]
    have hj : entriesOff rest idx = entriesAt ds v := by rw [← hoff v hvl, hv, entriesOff_subst']
    rw [← hv, hj]
    obtain ⟨h, hh⟩ : ∃ h : Nat → K, h = fun d => if d ∈ ds then (bs.getD d ⟨0, 0, fun _ _ => 0⟩).fn (p.getD (ds.idxOf d) []) (v.getD d 0)
      else M.getD d (fun _ => 0) (v.getD d 0) := ⟨_, rfl⟩
    have e1 : (List.zipWith (fun (v : Arr K) j => v.get [j]) (rest.map (meanVec bs M)) u).prod = (rest.map h).prod := by
      rw [hu', entriesAt, List.zipWith_map, List.zipWith_self]
      congr 1
      apply List.map_congr_left
      intro d hd
      have hn : d ∉ ds := by rw [hrest] at hd; exact (mem_setdiffRange.1 hd).2
      rw [hh]; beta_reduce
      rw [if_neg hn]
      rfl
    have hds : ds.Nodup := hs.imp (fun h => Nat.ne_of_lt h)
    have e2 : ∏ i ∈ range (keptBases bs ds).length, ((keptBases bs ds).getD i ⟨0, 0, fun _ _ => 0⟩).fn (p.getD i [])
        ((entriesAt ds v).getD i 0) = (ds.map h).prod := by
      rw [prod_range_list ds h (keptBases bs ds).length (by simp [keptBases])]
      apply prod_congr rfl
      intro i hi
      have hi : i < ds.length := by simpa [keptBases] using hi
      rw [hh]; beta_reduce
      rw [List.getD_eq_getElem ds _ hi, if_pos (List.getElem_mem hi), hds.idxOf_getElem]
      unfold keptBases entriesAt
      rw [List.getD_eq_getElem (ds.map _) _ (by simpa using hi), List.getD_eq_getElem (ds.map _) _ (by simpa using hi),
        List.getElem_map, List.getElem_map]
    have e3 : (rest ++ ds).Perm (List.range bs.length) := by
      have := dims_append_perm (n := bs.length) hnd hrl
      rwa [hrest, sorted_idx_setdiff hs hlt, ← hrest] at this
    rw [e1, e2, ← List.prod_append, ← List.map_append, (e3.map h).prod_eq, prod_range_list _ h bs.length (by simp)]
    apply prod_congr rfl
    intro d hd
    rw [List.getD_eq_getElem _ _ (by simpa using hd), List.getElem_range, hh]

/-! ### tensors of order one in tree-based format -/

theorem one_node {T : DimTree.DTree} (hV : DimTree.Valid T) (hn : T.n = 1) : T.dim2ind = [1] := by
  have hnode : ∀ i, DimTree.IsNode T i ↔ i = 1 := by intro i; unfold DimTree.IsNode; omega
  obtain ⟨l, l1, _⟩ := DimTree.exists_leaf_below hV 1 ((hnode 1).2 rfl)
  have hl : l = 1 := (hnode l).1 ((hV.leaves l).1 l1).1
  subst hl
  have hp : T.dim2ind.Perm [1] := by
    rw [List.perm_ext_iff_of_nodup hV.nodup (by simp)]
    intro k
    rw [List.mem_singleton]
    exact ⟨fun h => (hnode k).1 ((hV.leaves k).1 h).1, fun h => h ▸ l1⟩
  exact List.perm_singleton.1 hp

/-- The product of a tensor of order one with a matrix. -/
theorem one_product [CommSemiring K] (z : TBT K) (hV : DimTree.Valid z.tree) (hn : z.tree.n = 1) (b : Arr K) (hb : z.tensors 1 ≃ₐ b)
    (c : Nat) (hc : b.shape = [c]) (hpos : 0 < c) (M : Arr K) (n : Nat) (hM : M.shape = [n, c]) :
    ∃ y, TreeBased.tensorMatrixProduct z [M] (some [0]) = .ok ⟨z.tree, upd z.tensors 1 y⟩ ∧ y.shape = [n] ∧ z.active 1 = true ∧
      ∀ k, k < n → y.get [k] = sumBox b.shape (fun idx => b.get idx * M.get [k, idx.getD 0 0]) := by
  have hd := one_node hV hn
  have hord : z.order = 1 := by unfold TBT.order; rw [hd]; rfl
  have hsh : (z.tensors 1).shape = [c] := hb.1.trans hc
  have hact : z.active 1 = true := by unfold TBT.active; rw [hsh]; simp; omega
  obtain ⟨y, y1, y2, y3⟩ := FullTensor.tensorMatrixProduct_spec (z.tensors 1) [M] [0] (by simp)
    (.cons ⟨by unfold Arr.order; rw [hsh]; simp, n, by rw [hM, hsh]; rfl⟩ .nil)
  have hmem : ∀ i, i ∈ z.tree.nodes → i = 1 := by
    intro i hi
    have := (DimTree.mem_nodes i).1 hi
    unfold DimTree.IsNode at this; omega
  have hin : z.tree.internalNodes = [] := by
    unfold DimTree.DTree.internalNodes
    rw [List.filter_eq_nil_iff]
    intro i hi
    have := hmem i hi
    subst this
    simp [hd]
  have hfd : TreeBased.forDims z [(M, 0)] (fun a M axis => FullTensor.tensorMatrixProduct a [M] (some [axis])) =
      .ok (upd z.tensors 1 y) := by
    unfold TreeBased.forDims
    have hca : carrier z (z.tree.dim2ind.getD 0 0) = (1, 0) := by
      rw [hd]; unfold carrier; simp [hact]
    simp only [List.foldlM_cons, List.foldlM_nil, hca, y1, bind, Except.bind, pure, Except.pure]
  have hprod : TreeBased.tensorMatrixProduct z [M] (some [0]) = .ok ⟨z.tree, upd z.tensors 1 y⟩ := by
    simp only [TreeBased.tensorMatrixProduct, Option.getD_some, hord]
    simp [hfd, bind, Except.bind, TreeBased.mk, hin]
  have hys : y.shape = [n] := by rw [y2, hsh, List.map_cons, List.map_nil, hM]; rfl
  refine ⟨y, hprod, hys, hact, fun k hk => ?_⟩
  rw [y3 [k] (by rw [hys]; exact .cons hk .nil), hsh, hc]
  show sumBox [c] _ = sumBox [c] _
  apply sumBox_congr
  intro v hv
  obtain ⟨j, rfl⟩ : ∃ j, v = [j] := List.length_eq_one_iff.1 (by rw [hv.length_eq]; rfl)
  have : subst [k] [0] [j] = [j] := by simp [subst]
  rw [this, hb.2 [j] (by rw [hsh]; exact hv)]
  simp [entriesAt]

theorem evalDiag_one [CommSemiring K] (z : TBT K) (hV : DimTree.Valid z.tree) (hn : z.tree.n = 1) (b : Arr K) (hb : z.tensors 1 ≃ₐ b)
    (c : Nat) (hc : b.shape = [c]) (hpos : 0 < c) : EvalDiagOk (.tree z) b := by
  intro ms n hms
  have hd := one_node hV hn
  have hord : z.order = 1 := by unfold TBT.order; rw [hd]; rfl
  rw [hc] at hms
  obtain ⟨M, rfl, hM⟩ : ∃ M, ms = [M] ∧ M.shape = [n, c] := by
    cases hms with
    | cons h1 h2 => cases h2; exact ⟨_, rfl, h1⟩
  obtain ⟨r, hr, hroot⟩ := DimTree.root_ok hV
  have hr1 : r = 1 := by have := hroot.1; unfold DimTree.IsNode at this; omega
  subst hr1
  obtain ⟨lev, hlev, _⟩ := DimTree.level_ok hV
  obtain ⟨y, hprod, y2, hact, y3⟩ := one_product z hV hn b hb c hc hpos M n hM
  have hmem : ∀ i, i ∈ z.tree.nodes → i = 1 := by
    intro i hi
    have := (DimTree.mem_nodes i).1 hi
    unfold DimTree.IsNode at this; omega
  have hint : ∀ l, internalAt z.tree lev l = [] := by
    intro l
    unfold internalAt
    rw [List.filter_eq_nil_iff]
    intro i hi
    have := hmem i (List.mem_of_mem_filter hi)
    subst this
    simp [DimTree.DTree.isLeaf, hd]
  have hloop : ∀ (ls : List Nat) (ts : Nat → Arr K), ls.foldlM (fun ts l =>
      ((internalAt z.tree lev l).filter z.active).foldlM (evalNode z [M]) ts) ts = (.ok ts : Py _) := by
    intro ls
    induction ls with
    | nil => intro ts; rfl
    | cons l ls ih =>
      intro ts
      rw [List.foldlM_cons, hint]
      exact ih ts
  refine ⟨y, ?_, y2, ?_⟩
  · unfold TVal.evalDiagProduct
    have hind : (List.range z.order).filter (fun d => z.active (z.tree.dim2ind.getD d 0)) = [0] := by
      rw [hord, hd]; simp [hact]
    simp only [TreeBased.tensorMatrixProductEvalDiag, hind, List.map_cons, List.map_nil, List.getD_cons_zero, hprod, hr, hlev, hloop,
      bind, Except.bind]
    rw [show upd z.tensors 1 y 1 = y from by simp [upd]]
  · intro k hk
    rw [y3 k hk, hc]
    apply sumBox_congr
    intro v hv
    obtain ⟨j, rfl⟩ : ∃ j, v = [j] := List.length_eq_one_iff.1 (by rw [hv.length_eq]; rfl)
    simp

/-- The product of a tensor with vectors in all dimensions is the one of the dense tensor `a`. -/
def VectorAllOk [CommSemiring K] (t : TVal K) (a : Arr K) : Prop :=
  ∀ vs : List (Arr K), List.Forall₂ (fun (v : Arr K) m => v.shape = [m]) vs a.shape →
    ∃ y, t.vectorProductAll vs = .ok y ∧ y.shape = [] ∧
      y.get [] = sumBox a.shape (fun s => a.get s * (List.zipWith (fun (v : Arr K) j => v.get [j]) vs s).prod)

theorem VectorAllOk.same [CommSemiring K] {t : TVal K} {b b' : Arr K} (h : VectorAllOk t b) (hb : b ≃ₐ b') : VectorAllOk t b' := by
  intro vs hvs
  rw [← hb.1] at hvs
  obtain ⟨y, y1, y2, y3⟩ := h vs hvs
  refine ⟨y, y1, y2, ?_⟩
  rw [y3, ← hb.1]
  exact sumBox_congr (fun v hv => by rw [hb.2 v hv])

theorem vectorAll_one [CommSemiring K] (z : TBT K) (hV : DimTree.Valid z.tree) (hn : z.tree.n = 1) (b : Arr K) (hb : z.tensors 1 ≃ₐ b)
    (c : Nat) (hc : b.shape = [c]) (hpos : 0 < c) : VectorAllOk (.tree z) b := by
  intro vs hvs
  have hd := one_node hV hn
  have hord : z.order = 1 := by unfold TBT.order; rw [hd]; rfl
  rw [hc] at hvs
  obtain ⟨v, rfl, hv⟩ : ∃ v, vs = [v] ∧ v.shape = [c] := by
    cases hvs with
    | cons h1 h2 => cases h2; exact ⟨_, rfl, h1⟩
  obtain ⟨r, hr, hroot⟩ := DimTree.root_ok hV
  have hr1 : r = 1 := by have := hroot.1; unfold DimTree.IsNode at this; omega
  subst hr1
  obtain ⟨D, hD, _⟩ := DimTree.dims_ok hV
  obtain ⟨y, hprod, y2, hact, y3⟩ := one_product z hV hn b hb c hc hpos (FullTensor.rowMatrix v) 1 (by
    simp [FullTensor.rowMatrix, reshapeF, hv])
  have hfull : TreeBased.full ⟨z.tree, upd z.tensors 1 y⟩ = .ok y := by
    have ho : (⟨z.tree, upd z.tensors 1 y⟩ : TBT K).order = 1 := hord
    have hu : upd z.tensors 1 y 1 = y := by simp [upd]
    have hyo : ¬ (y.order = 2 ∧ y.shape.getD 1 0 = 1) := by unfold Arr.order; rw [y2]; simp
    simp only [TreeBased.full, TreeBased.fullWith, hD, hr, ho, hu, bind, Except.bind, if_true, if_neg hyo]
  obtain ⟨s1, s2⟩ := squeezeAll_ones y (by
    unfold Arr.order; rw [y2]; intro d hd
    have : d = 0 := by simpa using hd
    subst this; rfl)
  refine ⟨squeezeAll y, ?_, s1, ?_⟩
  · simp only [TVal.vectorProductAll, List.map_cons, List.map_nil, hord, List.range_one, hprod, hfull, bind, Except.bind]
  · rw [s2, show List.replicate y.order 0 = [0] from by unfold Arr.order; rw [y2]; rfl, y3 0 (by omega), hc]
    apply sumBox_congr
    intro u hu
    obtain ⟨j, rfl⟩ : ∃ j, u = [j] := List.length_eq_one_iff.1 (by rw [hu.length_eq]; rfl)
    have : (FullTensor.rowMatrix v).get [0, j] = v.get [j] := by
      have hj : j < c := by have := (inBox_iff_getD _ _).1 hu; simpa using this.2 0 (by simp)
      simp [FullTensor.rowMatrix, reshapeF, hv, ravelF, unravelF, Nat.mod_eq_of_lt hj]
    simp [this]

/-! ### conditional expectation -/

theorem EvalDiagOk.same [CommSemiring K] {t : TVal K} {b b' : Arr K} (h : EvalDiagOk t b) (hb : b ≃ₐ b') : EvalDiagOk t b' := by
  intro ms n hms
  rw [← hb.1] at hms
  obtain ⟨y, y1, y2, y3⟩ := h ms n hms
  refine ⟨y, y1, y2, fun k hk => ?_⟩
  rw [y3 k hk, ← hb.1]
  exact sumBox_congr (fun v hv => by rw [hb.2 v hv])

/-- The product with vectors in some dimensions, in both formats. -/
theorem vectorProduct_spec [CommSemiring K] (t : TVal K) (a : Arr K) (h : Represents t a) (vs : List (Arr K)) (rest : List Nat)
    (hnd : rest.Nodup) (hpos : ∀ n ∈ a.shape, 0 < n)
    (hfit : List.Forall₂ (fun (v : Arr K) d => d < a.order ∧ v.shape = [a.shape.getD d 0]) vs rest)
    (hne : FullTensor.setdiffRange a.shape.length rest ≠ []) (b : Arr K)
    (hb : FullTensor.tensorVectorProduct a vs (some rest) = .ok b) :
    ∃ t', t.vectorProduct vs rest = .ok t' ∧ EvalDiagOk t' b ∧ t'.order = b.shape.length ∧ VectorAllOk t' b := by
  obtain ⟨b0, g1, g2, _⟩ := FullTensor.tensorVectorProduct_spec a vs rest hnd hfit
  rw [hb] at g1; cases g1
  have hbl : b.shape.length = (FullTensor.setdiffRange a.shape.length rest).length := by
    rw [g2, Truncation.entriesOff_perm _ _ _ rfl]; unfold applyPerm; simp
  have hlt : ∀ d ∈ rest, d < a.shape.length := by
    intro d hd
    obtain ⟨i, hi, rfl⟩ := List.getElem_of_mem hd
    have := List.forall₂_iff_get.1 hfit
    exact (this.2 i (by rw [this.1]; exact hi) hi).1
  cases t with
  | full c =>
    obtain ⟨rfl, h0⟩ := h
    have hrep : Represents (.full b) b := ⟨rfl, by
      unfold Arr.order; rw [hbl]; exact fun h => hne (List.length_eq_zero_iff.1 h)⟩
    exact ⟨.full b, by simp only [TVal.vectorProduct, hb, bind, Except.bind], fun ms n hms => evalDiagProduct_spec (.full b) b hrep ms n hms,
      rfl, fun vs hvs => vectorProductAll_spec _ b hrep vs hvs⟩
  | tree x =>
    obtain ⟨hx, hf, hs⟩ := h
    have hsl : x.shape.length = x.order := by unfold TBT.shape TBT.order; simp
    have hok : VecOk x vs rest := ⟨hnd, fun d hd => by have := hlt d hd; rw [hs, hsl] at this; exact this,
      hfit.imp (fun v d hv => by rw [← hs]; exact hv.2)⟩
    by_cases h2 : 2 ≤ (FullTensor.setdiffRange x.order rest).length
    · obtain ⟨z, a', c, c', e1, e2, e3, e4, e5, e6, e7, e8⟩ := tensorVectorProductTB_full x hx vs rest hok h2
      rw [hf] at e3; cases e3
      rw [hb] at e5; cases e5
      have hcs : c.shape = z.shape := by rw [e6.1, g2, e7, hs]
      refine ⟨.tree z, by simp only [TVal.vectorProduct, e1, bind, Except.bind], ?_, ?_,
        VectorAllOk.same (fun vs hvs => vectorProductAll_spec (.tree z) c ⟨e2, e4, hcs⟩ vs hvs) e6⟩
      · exact EvalDiagOk.same (fun ms n hms => evalDiagProduct_spec (.tree z) c ⟨e2, e4, hcs⟩ ms n hms) e6
      · rw [Represents.order (t := .tree z) (a := c) ⟨e2, e4, hcs⟩, e6.1]
    · have h1 : (FullTensor.setdiffRange x.order rest).length = 1 := by
        have : (FullTensor.setdiffRange x.order rest).length ≠ 0 := by
          rw [← hsl, ← hs]; exact fun h => hne (List.length_eq_zero_iff.1 h)
        omega
      obtain ⟨z, a', c', e1, e2, e3, e4, e5, e6, e7⟩ := tensorVectorProductTB_one x hx vs rest hok h1
      rw [hf] at e4; cases e4
      rw [hb] at e5; cases e5
      have hb1 : b.shape.length = 1 := by rw [hbl, hs, hsl, h1]
      obtain ⟨c, hc⟩ := List.length_eq_one_iff.1 hb1
      have hcp : 0 < c := by
        have : c ∈ entriesOff rest a.shape := by rw [← g2, hc]; simp
        unfold entriesOff at this
        rw [List.mem_map] at this
        obtain ⟨k, hk, rfl⟩ := this
        rw [List.mem_filter, List.mem_range] at hk
        rw [List.getD_eq_getElem _ _ hk.1]
        exact hpos _ (List.getElem_mem _)
      refine ⟨.tree z, by simp only [TVal.vectorProduct, e1, bind, Except.bind], evalDiag_one z e2 e3 b e6 c hc hcp, ?_,
        vectorAll_one z e2 e3 b e6 c hc hcp⟩
      show z.order = _
      unfold TBT.order
      rw [one_node e2 e3, hc]; rfl

/-- The mean of a functional tensor, in any format. -/
theorem mean_of [CommSemiring K] (t : TVal K) (a : Arr K) (h : VectorAllOk t a) (bs : List (Basis K))
    (hc : a.shape = bs.map Basis.card) (M : List (Nat → K)) (hM : M.length = bs.length) :
    ∃ y, (⟨t, bs⟩ : FTn K).mean M = .ok y ∧ y.shape = [] ∧
      y.get [] = sumBox a.shape (fun idx => a.get idx * ∏ d ∈ range bs.length, M.getD d (fun _ => 0) (idx.getD d 0)) := by
  have hl : a.shape.length = bs.length := by rw [hc]; simp
  obtain ⟨y, y1, y2, y3⟩ := h
    (List.zipWith (fun b m => (⟨[b.card], fun j => m (j.getD 0 0)⟩ : Arr K)) bs M) (by
      rw [hc, List.forall₂_iff_get]
      refine ⟨by simp [hM], fun d h1 h2 => ?_⟩
      simp)
  refine ⟨y, y1, y2, ?_⟩
  rw [y3]
  apply sumBox_congr
  intro s hs
  have hsl : s.length = bs.length := by rw [hs.length_eq, hl]
  congr 1
  rw [Truncation.zipWith_prod (fun (v : Arr K) j => v.get [j]) ⟨[], fun _ => 0⟩ 0 _ _ bs.length (by simp [hM]) hsl]
  apply prod_congr rfl
  intro d hd
  have hd := mem_range.1 hd
  rw [List.getD_eq_getElem (List.zipWith _ _ _) _ (by simp; omega), List.getElem_zipWith, List.getD_eq_getElem M _ (by omega)]
  rfl

/-- Sums over all the kept axes: the contraction of the conditional expectation with the means of the kept bases. -/
theorem contraction_total [CommSemiring K] (a : Arr K) (bs : List (Basis K)) (hc : a.shape = bs.map Basis.card)
    (hcard : ∀ b ∈ bs, 0 < b.card) (M : List (Nat → K)) (ds : List Nat) (hs : ds.Pairwise (· < ·)) (hlt : ∀ k ∈ ds, k < bs.length)
    (b : Arr K) (hb : FullTensor.tensorVectorProduct a ((FullTensor.setdiffRange bs.length ds).map (meanVec bs M))
        (some (FullTensor.setdiffRange bs.length ds)) = .ok b) :
    sumBox b.shape (fun j => b.get j * ∏ i ∈ range ds.length, M.getD (ds.getD i 0) (fun _ => 0) (j.getD i 0)) =
      sumBox a.shape (fun idx => a.get idx * ∏ d ∈ range bs.length, M.getD d (fun _ => 0) (idx.getD d 0)) := by
  obtain ⟨b', b1, b2, b3, b4⟩ := contraction a (bs.mapIdx (fun d b => (⟨b.ndim, b.card, fun _ j => M.getD d (fun _ => 0) j⟩ : Basis K)))
    (by rw [hc]; apply List.ext_getElem (by simp); intro i h1 h2; simp) (by
      intro b hb
      obtain ⟨i, hi, rfl⟩ := List.getElem_of_mem hb
      simp only [List.getElem_mapIdx]
      exact hcard _ (List.getElem_mem _)) M ds hs (by simpa using hlt)
  have hgd : ∀ d, d < bs.length → (bs.mapIdx (fun d b => (⟨b.ndim, b.card, fun _ j => M.getD d (fun _ => 0) j⟩ : Basis K))).getD d
      ⟨0, 0, fun _ _ => 0⟩ = ⟨(bs.getD d ⟨0, 0, fun _ _ => 0⟩).ndim, (bs.getD d ⟨0, 0, fun _ _ => 0⟩).card, fun _ j => M.getD d (fun _ => 0) j⟩ := by
    intro d hd
    rw [List.getD_eq_getElem _ _ (by simpa using hd), List.getElem_mapIdx, List.getD_eq_getElem bs _ hd]
  have hmv : (FullTensor.setdiffRange (bs.mapIdx (fun d b => (⟨b.ndim, b.card, fun _ j => M.getD d (fun _ => 0) j⟩ : Basis K))).length ds).map
      (meanVec (bs.mapIdx (fun d b => (⟨b.ndim, b.card, fun _ j => M.getD d (fun _ => 0) j⟩ : Basis K))) M) =
      (FullTensor.setdiffRange bs.length ds).map (meanVec bs M) := by
    rw [List.length_mapIdx]
    apply List.map_congr_left
    intro d hd
    unfold meanVec
    rw [hgd d (mem_setdiffRange.1 hd).1]
  rw [hmv, List.length_mapIdx, hb] at b1
  cases b1
  have := b4 []
  unfold value condValue at this
  rw [List.length_mapIdx] at this
  have e1 : sumBox b.shape (fun j => b.get j * ∏ i ∈ range ds.length, M.getD (ds.getD i 0) (fun _ => 0) (j.getD i 0)) =
      sumBox b.shape (fun idx => b.get idx * ∏ d ∈ range (keptBases (bs.mapIdx (fun d b =>
        (⟨b.ndim, b.card, fun _ j => M.getD d (fun _ => 0) j⟩ : Basis K))) ds).length,
        ((keptBases (bs.mapIdx (fun d b => (⟨b.ndim, b.card, fun _ j => M.getD d (fun _ => 0) j⟩ : Basis K))) ds).getD d
          ⟨0, 0, fun _ _ => 0⟩).fn (([] : List (List K)).getD d []) (idx.getD d 0)) := by
    apply sumBox_congr
    intro j _
    congr 1
    rw [show (keptBases (bs.mapIdx (fun d b => (⟨b.ndim, b.card, fun _ j => M.getD d (fun _ => 0) j⟩ : Basis K))) ds).length = ds.length from
      by simp [keptBases]]
    apply prod_congr rfl
    intro i hi
    have hi := mem_range.1 hi
    unfold keptBases
    rw [List.getD_eq_getElem (ds.map _) _ (by simpa using hi), List.getElem_map, hgd _ (hlt _ (List.getElem_mem hi)),
      List.getD_eq_getElem ds _ hi]
  rw [e1, this]
  apply sumBox_congr
  intro idx _
  congr 1
  apply prod_congr rfl
  intro d hd
  rw [hgd d (mem_range.1 hd)]
  split <;> rfl

/-- The conditional expectation: its values and its mean. -/
theorem conditionalExpectation_core [CommSemiring K] (t : TVal K) (a : Arr K) (h : Represents t a) (bs : List (Basis K))
    (hc : a.shape = bs.map Basis.card) (hcard : ∀ b ∈ bs, 0 < b.card) (M : List (Nat → K)) (dims : List Nat) (hne : dims ≠ [])
    (hnd : dims.Nodup) (hlt : ∀ d ∈ dims, d < bs.length) :
    ∃ g, (⟨t, bs⟩ : FTn K).conditionalExpectation M (.idx dims) = .ok (.function g) ∧
      g.bases = keptBases bs (dims.insertionSort (· ≤ ·)) ∧
      (∀ pts : List (List (List K)), (∀ p ∈ pts, p.map List.length = g.bases.map Basis.ndim) →
        ∃ y, g.eval (pts.map List.flatten) = .ok y ∧ y.shape = [pts.length] ∧
          ∀ k, k < pts.length → y.get [k] = condValue a bs M (dims.insertionSort (· ≤ ·)) (pts.getD k [])) ∧
      (M.length = bs.length → ∃ y, g.mean ((dims.insertionSort (· ≤ ·)).map (fun d => M.getD d (fun _ => 0))) = .ok y ∧ y.shape = [] ∧
        y.get [] = sumBox a.shape (fun idx => a.get idx * ∏ d ∈ range bs.length, M.getD d (fun _ => 0) (idx.getD d 0))) := by
  obtain ⟨ds, hds⟩ : ∃ ds, ds = dims.insertionSort (· ≤ ·) := ⟨_, rfl⟩
  rw [← hds]
  have hs : ds.Pairwise (· < ·) := by rw [hds]; exact sort_lt hnd
  have hm : ∀ k, k ∈ ds ↔ k ∈ dims := fun k => by rw [hds]; exact mem_sortDims k
  have hdl : ∀ k ∈ ds, k < bs.length := fun k hk => hlt k ((hm k).1 hk)
  have hdne : ds ≠ [] := by
    obtain ⟨d, hd⟩ := List.exists_mem_of_ne_nil _ hne
    exact List.ne_nil_of_mem ((hm d).2 hd)
  have hl : a.shape.length = bs.length := by rw [hc]; simp
  have hsort : DimsArg.sorted (.idx dims) = ds := hds.symm
  have hemp : ds.isEmpty = false := by simpa using hdne
  by_cases hr : FullTensor.setdiffRange bs.length ds = []
  · have hall : ds = List.range bs.length := by
      have := sorted_idx_setdiff hs hdl
      rw [hr] at this
      rw [← this]
      unfold FullTensor.setdiffRange
      simp
    have hkb : keptBases bs ds = bs := by
      rw [hall]
      unfold keptBases
      apply List.ext_getElem (by simp)
      intro i h1 h2
      rw [List.getElem_map, List.getElem_range, List.getD_eq_getElem bs _ h2]
    refine ⟨⟨t, bs⟩, by simp [FTn.conditionalExpectation, hsort, hemp, hr], hkb.symm, fun pts hp => ?_, fun hM => ?_⟩
    swap
    · obtain ⟨y, y1, y2, y3⟩ := mean_spec t a h bs hc (ds.map (fun d => M.getD d (fun _ => 0))) (by rw [hall]; simp)
      refine ⟨y, y1, y2, ?_⟩
      rw [y3]
      apply sumBox_congr
      intro idx _
      congr 1
      apply prod_congr rfl
      intro d hd
      have hd := mem_range.1 hd
      rw [hall, List.getD_eq_getElem (List.map _ _) _ (by simpa using hd), List.getElem_map, List.getElem_range]
    obtain ⟨f, y, f1, f2, f3, f4⟩ := eval_spec t a h bs hc pts hp
    have : f = ⟨t, bs⟩ := by
      unfold FTn.mk' at f1
      split at f1
      · cases f1
      · cases f1; rfl
    subst this
    refine ⟨y, f2, f3, fun k hk => ?_⟩
    rw [f4 k hk]
    unfold value condValue
    apply sumBox_congr
    intro idx _
    congr 1
    apply prod_congr rfl
    intro d hd
    have hd := mem_range.1 hd
    have hdm : d ∈ ds := by rw [hall]; exact List.mem_range.2 hd
    rw [if_pos hdm, hall, show (List.range bs.length).idxOf d = d from by
      have := List.nodup_range (n := bs.length) |>.idxOf_getElem d (by simpa using hd)
      rwa [List.getElem_range] at this]
  · obtain ⟨b, b1, b2, b3, b4⟩ := contraction a bs hc hcard M ds hs hdl
    obtain ⟨rest, hrest⟩ : ∃ rest, rest = FullTensor.setdiffRange bs.length ds := ⟨_, rfl⟩
    rw [← hrest] at b1 b3 hr
    have hrnd : rest.Nodup := by rw [hrest]; exact List.nodup_range.filter _
    have hrl : ∀ k ∈ rest, k < bs.length := fun k hk => by rw [hrest] at hk; exact (mem_setdiffRange.1 hk).1
    obtain ⟨t', t1, t2, t3, t4⟩ := vectorProduct_spec t a h (rest.map (meanVec bs M)) rest hrnd (by
        rw [hc]; intro n hn; rw [List.mem_map] at hn; obtain ⟨b, hb, rfl⟩ := hn; exact hcard b hb) (by
        rw [List.forall₂_map_left_iff, List.forall₂_same]
        intro d hd
        refine ⟨by unfold Arr.order; rw [hl]; exact hrl d hd, ?_⟩
        rw [hc, List.getD_eq_getElem (bs.map _) _ (by simpa using hrl d hd), List.getElem_map]
        unfold meanVec
        rw [List.getD_eq_getElem bs _ (hrl d hd)]) (by
        rw [hl, hrest, sorted_idx_setdiff hs hdl]; exact hdne) b b1
    have hkl : b.shape.length = (keptBases bs ds).length := by rw [b2]; simp
    have hkeep : DimsArg.keep bs (.idx dims) = .ok (keptBases bs ds) := by
      show (DimsArg.sorted (.idx dims)).mapM (lookup bs) = _
      rw [hsort]
      exact lookups_ok bs ds hdl _
    have hkne : keptBases bs ds ≠ [] := by unfold keptBases; simpa using hdne
    have hmk : FTn.mk' t' (keptBases bs ds) = .ok ⟨t', keptBases bs ds⟩ := by
      unfold FTn.mk'; rw [if_neg (by rw [t3, hkl]; simp)]
    refine ⟨⟨t', keptBases bs ds⟩, ?_, rfl, fun pts hp => ?_, fun hM => ?_⟩
    · have hre : rest.isEmpty = false := by simpa using hr
      simp only [FTn.conditionalExpectation, hsort, hemp, ← hrest, hre, t1, hkeep, hmk, bind, Except.bind, Bool.false_eq_true, if_false]
    · obtain ⟨f, y, f1, f2, f3, f4⟩ := eval_of t' b t2 t3 (keptBases bs ds) hkne b2 pts hp
      rw [hmk] at f1; cases f1
      exact ⟨y, f2, f3, fun k hk => by rw [f4 k hk, b4]⟩
    · obtain ⟨y, y1, y2, y3⟩ := mean_of t' b t4 (keptBases bs ds) b2 (ds.map (fun d => M.getD d (fun _ => 0))) (by simp [keptBases])
      refine ⟨y, y1, y2, ?_⟩
      rw [y3, ← contraction_total a bs hc hcard M ds hs hdl b (by rw [← hrest]; exact b1)]
      apply sumBox_congr
      intro j _
      congr 1
      rw [show (keptBases bs ds).length = ds.length from by simp [keptBases]]
      apply prod_congr rfl
      intro i hi
      have hi := mem_range.1 hi
      rw [List.getD_eq_getElem (ds.map _) _ (by simpa using hi), List.getElem_map, List.getD_eq_getElem ds _ hi]

/-- C145. `conditional_expectation(dims)` of a functional tensor, dense or tree-based: a functional tensor in the bases of the
dimensions `dims` (in increasing order), whose value at a point is the contraction of the coefficients with the basis functions of
these dimensions at the point and with the means of the other bases. -/
theorem conditionalExpectation_eval [CommSemiring K] (t : TVal K) (a : Arr K) (h : Represents t a) (bs : List (Basis K))
    (hc : a.shape = bs.map Basis.card) (hcard : ∀ b ∈ bs, 0 < b.card) (M : List (Nat → K)) (dims : List Nat) (hne : dims ≠ [])
    (hnd : dims.Nodup) (hlt : ∀ d ∈ dims, d < bs.length) :
    ∃ g, (⟨t, bs⟩ : FTn K).conditionalExpectation M (.idx dims) = .ok (.function g) ∧
      g.bases = keptBases bs (dims.insertionSort (· ≤ ·)) ∧
      ∀ pts : List (List (List K)), (∀ p ∈ pts, p.map List.length = g.bases.map Basis.ndim) →
        ∃ y, g.eval (pts.map List.flatten) = .ok y ∧ y.shape = [pts.length] ∧
          ∀ k, k < pts.length → y.get [k] = condValue a bs M (dims.insertionSort (· ≤ ·)) (pts.getD k []) := by
  obtain ⟨g, g1, g2, g3, _⟩ := conditionalExpectation_core t a h bs hc hcard M dims hne hnd hlt
  exact ⟨g, g1, g2, g3⟩

/-- C146. The law of total expectation: the mean of the conditional expectation is the mean of the function. -/
theorem mean_conditionalExpectation [CommSemiring K] (t : TVal K) (a : Arr K) (h : Represents t a) (bs : List (Basis K))
    (hc : a.shape = bs.map Basis.card) (hcard : ∀ b ∈ bs, 0 < b.card) (M : List (Nat → K)) (hM : M.length = bs.length)
    (dims : List Nat) (hne : dims ≠ []) (hnd : dims.Nodup) (hlt : ∀ d ∈ dims, d < bs.length) :
    ∃ g y y', (⟨t, bs⟩ : FTn K).conditionalExpectation M (.idx dims) = .ok (.function g) ∧
      g.mean ((dims.insertionSort (· ≤ ·)).map (fun d => M.getD d (fun _ => 0))) = .ok y ∧ (⟨t, bs⟩ : FTn K).mean M = .ok y' ∧
      y.shape = [] ∧ y'.shape = [] ∧ y.get [] = y'.get [] := by
  obtain ⟨g, g1, _, _, g4⟩ := conditionalExpectation_core t a h bs hc hcard M dims hne hnd hlt
  obtain ⟨y, y1, y2, y3⟩ := g4 hM
  obtain ⟨y', z1, z2, z3⟩ := mean_spec t a h bs hc M hM
  exact ⟨g, y, y', g1, y1, z1, y2, z2, by rw [y3, z3]⟩

/-- The point of which the variables `ds` (increasing) are the lists of `p` and the other variables are `q d`. -/
def joinPoint (D : Nat) (ds : List Nat) (p : List (List K)) (q : Nat → List K) : List (List K) :=
  (List.range D).map (fun d => if d ∈ ds then p.getD (ds.idxOf d) [] else q d)

/-- C145. When the means of the bases are their averages over weighted points, the value of the conditional expectation at a point is
the average of the values of the function over the tensor grid of the points of the other variables. -/
theorem conditionalExpectation_average [CommSemiring K] (t : TVal K) (a : Arr K) (h : Represents t a) (bs : List (Basis K))
    (hc : a.shape = bs.map Basis.card) (hcard : ∀ b ∈ bs, 0 < b.card) (M : List (Nat → K)) (dims : List Nat) (hne : dims ≠ [])
    (hnd : dims.Nodup) (hlt : ∀ d ∈ dims, d < bs.length)
    (P : Nat → Nat → List K) (w : Nat → Nat → K) (n : Nat → Nat)
    (hmean : ∀ d, d < bs.length → ∀ j, M.getD d (fun _ => 0) j =
      ∑ k ∈ range (n d), w d k * (bs.getD d ⟨0, 0, fun _ _ => 0⟩).fn (P d k) j)
    (ds rest : List Nat) (hds : ds = dims.insertionSort (· ≤ ·)) (hrest : rest = (List.range bs.length).filter (· ∉ dims)) :
    ∃ g, (⟨t, bs⟩ : FTn K).conditionalExpectation M (.idx dims) = .ok (.function g) ∧ g.bases = keptBases bs ds ∧
      ∀ pts : List (List (List K)), (∀ p ∈ pts, p.map List.length = g.bases.map Basis.ndim) →
        ∃ y, g.eval (pts.map List.flatten) = .ok y ∧ y.shape = [pts.length] ∧
          ∀ k, k < pts.length → y.get [k] = sumBox (rest.map n) (fun ks =>
            (∏ i ∈ range rest.length, w (rest.getD i 0) (ks.getD i 0)) *
              value a bs (joinPoint bs.length ds (pts.getD k []) (fun d => P d (ks.getD (rest.idxOf d) 0)))) := by
  obtain ⟨g, g1, g2, g3⟩ := conditionalExpectation_eval t a h bs hc hcard M dims hne hnd hlt
  rw [← hds] at g2 g3
  refine ⟨g, g1, g2, fun pts hp => ?_⟩
  obtain ⟨y, y1, y2, y3⟩ := g3 pts hp
  refine ⟨y, y1, y2, fun k hk => ?_⟩
  rw [y3 k hk]
  generalize pts.getD k [] = p
  have hm : ∀ k, k ∈ ds ↔ k ∈ dims := fun k => by rw [hds]; exact mem_sortDims k
  have hrnd : rest.Nodup := by rw [hrest]; exact List.nodup_range.filter _
  have hrm : ∀ d, d ∈ rest ↔ d < bs.length ∧ d ∉ ds := by
    intro d; rw [hrest, List.mem_filter, List.mem_range, decide_eq_true_eq, hm]
  have hdnd : ds.Nodup := by rw [hds]; exact (List.perm_insertionSort (· ≤ ·) dims).nodup_iff.2 hnd
  have hperm : (ds ++ rest).Perm (List.range bs.length) := by
    rw [List.perm_ext_iff_of_nodup _ List.nodup_range]
    · intro d
      rw [List.mem_append, hrm, List.mem_range]
      constructor
      · rintro (h | h)
        · exact hlt d ((hm d).1 h)
        · exact h.1
      · intro h
        by_cases hd : d ∈ ds
        · exact Or.inl hd
        · exact Or.inr ⟨h, hd⟩
    · rw [List.nodup_append]
      refine ⟨hdnd, hrnd, ?_⟩
      rintro d h1 e h2 rfl
      exact ((hrm d).1 h2).2 h1
  have hsplit : ∀ F : Nat → K, ∏ d ∈ range bs.length, F d = (ds.map F).prod * ∏ i ∈ range rest.length, F (rest.getD i 0) := by
    intro F
    have h1 := prod_range_list (List.range bs.length) F bs.length (by simp)
    have h2 : ∏ i ∈ range bs.length, F ((List.range bs.length).getD i 0) = ∏ d ∈ range bs.length, F d := by
      apply prod_congr rfl
      intro d hd
      rw [List.getD_eq_getElem _ _ (by simpa using hd), List.getElem_range]
    rw [← h2, ← h1, ← (hperm.map F).prod_eq, List.map_append, List.prod_append, ← prod_range_list rest F rest.length rfl]
  have hval : ∀ ks : List Nat, ks.length = rest.length → (∏ i ∈ range rest.length, w (rest.getD i 0) (ks.getD i 0)) *
      value a bs (joinPoint bs.length ds p (fun d => P d (ks.getD (rest.idxOf d) 0))) =
      sumBox a.shape (fun idx => a.get idx * ((ds.map (fun d =>
        (bs.getD d ⟨0, 0, fun _ _ => 0⟩).fn (p.getD (ds.idxOf d) []) (idx.getD d 0))).prod *
        ∏ i ∈ range rest.length, (w (rest.getD i 0) (ks.getD i 0) *
          (bs.getD (rest.getD i 0) ⟨0, 0, fun _ _ => 0⟩).fn (P (rest.getD i 0) (ks.getD i 0)) (idx.getD (rest.getD i 0) 0)))) := by
    intro ks hks
    unfold value
    rw [← sumBox_mul_left]
    apply sumBox_congr
    intro idx _
    rw [prod_mul_distrib, hsplit]
    have hj : ∀ d, d < bs.length → (joinPoint bs.length ds p (fun d => P d (ks.getD (rest.idxOf d) 0))).getD d [] =
        if d ∈ ds then p.getD (ds.idxOf d) [] else P d (ks.getD (rest.idxOf d) 0) := by
      intro d hd
      unfold joinPoint
      rw [List.getD_eq_getElem (List.map _ _) _ (by simpa using hd), List.getElem_map, List.getElem_range]
    have e1 : (ds.map (fun d => (bs.getD d ⟨0, 0, fun _ _ => 0⟩).fn
        ((joinPoint bs.length ds p (fun d => P d (ks.getD (rest.idxOf d) 0))).getD d []) (idx.getD d 0))).prod =
        (ds.map (fun d => (bs.getD d ⟨0, 0, fun _ _ => 0⟩).fn (p.getD (ds.idxOf d) []) (idx.getD d 0))).prod := by
      congr 1
      apply List.map_congr_left
      intro d hd
      rw [hj d (hlt d ((hm d).1 hd)), if_pos hd]
    have e2 : ∏ i ∈ range rest.length, (bs.getD (rest.getD i 0) ⟨0, 0, fun _ _ => 0⟩).fn
        ((joinPoint bs.length ds p (fun d => P d (ks.getD (rest.idxOf d) 0))).getD (rest.getD i 0) []) (idx.getD (rest.getD i 0) 0) =
        ∏ i ∈ range rest.length, (bs.getD (rest.getD i 0) ⟨0, 0, fun _ _ => 0⟩).fn (P (rest.getD i 0) (ks.getD i 0))
          (idx.getD (rest.getD i 0) 0) := by
      apply prod_congr rfl
      intro i hi
      have hi := mem_range.1 hi
      have hmem : rest.getD i 0 ∈ rest := by rw [List.getD_eq_getElem _ _ hi]; exact List.getElem_mem hi
      rw [hj _ ((hrm _).1 hmem).1, if_neg ((hrm _).1 hmem).2]
      congr 2
      rw [List.getD_eq_getElem rest _ hi, hrnd.idxOf_getElem]
    rw [e1, e2]
    ring
  rw [sumBox_congr (fun ks hks => hval ks (by rw [hks.length_eq]; simp)), sumBox_comm]
  unfold condValue
  apply sumBox_congr
  intro idx _
  rw [sumBox_mul_left]
  congr 1
  rw [hsplit, sumBox_mul_left]
  have e1 : (ds.map (fun d => if d ∈ ds then (bs.getD d ⟨0, 0, fun _ _ => 0⟩).fn (p.getD (ds.idxOf d) []) (idx.getD d 0)
      else M.getD d (fun _ => 0) (idx.getD d 0))) =
      ds.map (fun d => (bs.getD d ⟨0, 0, fun _ _ => 0⟩).fn (p.getD (ds.idxOf d) []) (idx.getD d 0)) :=
    List.map_congr_left (fun d hd => by rw [if_pos hd])
  rw [e1]
  congr 1
  have := Truncation.sumBox_prodF (rest.map n) (fun i k => w (rest.getD i 0) k *
    (bs.getD (rest.getD i 0) ⟨0, 0, fun _ _ => 0⟩).fn (P (rest.getD i 0) k) (idx.getD (rest.getD i 0) 0))
  rw [List.length_map] at this
  rw [this]
  apply prod_congr rfl
  intro i hi
  have hi := mem_range.1 hi
  have hmem : rest.getD i 0 ∈ rest := by rw [List.getD_eq_getElem _ _ hi]; exact List.getElem_mem hi
  rw [if_neg ((hrm _).1 hmem).2, hmean _ ((hrm _).1 hmem).1, List.getD_eq_getElem (rest.map n) _ (by simpa using hi), List.getElem_map,
    List.getD_eq_getElem rest _ hi]

/-- C145. Without dimensions, `conditional_expectation([])` is the mean. -/
theorem conditionalExpectation_empty [CommSemiring K] (t : TVal K) (a : Arr K) (h : Represents t a) (bs : List (Basis K))
    (hc : a.shape = bs.map Basis.card) (M : List (Nat → K)) (hM : M.length = bs.length) :
    ∃ y, (⟨t, bs⟩ : FTn K).conditionalExpectation M (.idx []) = .ok (.number y) ∧ y.shape = [] ∧
      y.get [] = sumBox a.shape (fun idx => a.get idx * ∏ d ∈ range bs.length, M.getD d (fun _ => 0) (idx.getD d 0)) := by
  obtain ⟨y, y1, y2, y3⟩ := mean_spec t a h bs hc M hM
  refine ⟨y, ?_, y2, y3⟩
  simp only [FTn.conditionalExpectation, DimsArg.sorted, List.insertionSort_nil, List.isEmpty_nil, if_true, y1, bind, Except.bind]

/-- A function of three variables in the bases `1, x` with integer coefficients. -/
def exLin : FTn Int := ⟨.full ⟨[2, 2, 2], fun i => i.getD 0 0 + 10 * i.getD 1 0 + 100 * i.getD 2 0 + 1⟩,
  List.replicate 3 ⟨1, 2, fun x j => x.getD 0 0 ^ j⟩⟩

/-- C145 is false of dimensions given by an array of booleans (`dims` is documented as a list or array of dimensions, and the code
intends to accept masks): the mask `[True, False, True]` is not converted to the dimensions 0 and 2, the result is not the one for these
dimensions. -/
theorem mask_wrong : ∃ g g' : FTn Int,
    exLin.conditionalExpectation [fun _ => 1, fun _ => 1, fun _ => 1] (.mask [true, false, true]) = .ok (.function g) ∧
    exLin.conditionalExpectation [fun _ => 1, fun _ => 1, fun _ => 1] (.idx [0, 2]) = .ok (.function g') ∧
    (match g.eval [[2, 3]], g'.eval [[2, 3]] with
      | .ok y, .ok y' => decide (y.get [0] ≠ y'.get [0])
      | _, _ => false) = true := by
  refine ⟨_, _, rfl, rfl, ?_⟩
  decide +kernel

/-- With a mask of two dimensions with both values, the function itself is returned. -/
theorem mask_two (f : FTn Int) (h : f.bases.length = 2) (M : List (Nat → Int)) (b : Bool) :
    f.conditionalExpectation M (.mask [b, !b]) = .ok (.function f) := by
  have : DimsArg.sorted (.mask [b, !b]) = [0, 1] := by cases b <;> decide
  have h2 : FullTensor.setdiffRange 2 [0, 1] = [] := by decide
  simp [FTn.conditionalExpectation, this, h, h2]

/-- Example of a tree-based tensor meeting the hypotheses, with two remaining dimensions and with one. -/
example : (match (⟨.tree exT, exBases⟩ : FTn Int).conditionalExpectation (List.replicate 3 (fun j => (j : Int) + 2)) (.idx [2, 0]) with
    | .ok (.function g) => match g.eval [[3, 5], [1, 2]], TreeBased.full exT with
      | .ok y, .ok a => decide (y.shape = [2] ∧ y.get [0] = condValue a exBases (List.replicate 3 (fun j => (j : Int) + 2)) [0, 2] [[3], [5]]
          ∧ g.tensor.order = 2)
      | _, _ => false
    | _ => false) = true := by decide +kernel

example : (match (⟨.tree exT, exBases⟩ : FTn Int).conditionalExpectation (List.replicate 3 (fun j => (j : Int) + 2)) (.idx [1]) with
    | .ok (.function g) => match g.eval [[3, 5], [1, 2]], TreeBased.full exT with
      | .ok y, .ok a => decide (y.shape = [2] ∧ y.get [1] = condValue a exBases (List.replicate 3 (fun j => (j : Int) + 2)) [1] [[1, 2]]
          ∧ g.tensor.order = 1 ∧ y.get [1] ≠ 0)
      | _, _ => false
    | _ => false) = true := by decide +kernel

example : ∀ b ∈ exBases, 0 < b.card := by decide +kernel

/-! ### inner products -/

/-- C147 is false of every functional tensor with `FunctionalBases`: the inner product with itself raises an `AttributeError`. -/
theorem dotProductExpectation_refused (f : FTn K) : f.dotProductExpectation f true = .error .attributeError := by
  simp [FTn.dotProductExpectation]

theorem variance_refused [CommRing K] (t : TVal K) (a : Arr K) (h : Represents t a) (bs : List (Basis K))
    (hc : a.shape = bs.map Basis.card) (M : List (Nat → K)) (hM : M.length = bs.length) :
    (⟨t, bs⟩ : FTn K).variance M = .error .attributeError := by
  obtain ⟨y, y1, y2, y3⟩ := mean_spec t a h bs hc M hM
  simp only [FTn.variance, y1, dotProductExpectation_refused, bind, Except.bind]

/-- `variance_conditional_expectation`: 0 for the empty set, an `AttributeError` otherwise. -/
theorem varianceConditionalExpectation_refused [CommRing K] (t : TVal K) (a : Arr K) (h : Represents t a) (bs : List (Basis K))
    (hc : a.shape = bs.map Basis.card) (hcard : ∀ b ∈ bs, 0 < b.card) (M : List (Nat → K)) (hM : M.length = bs.length)
    (dims : List Nat) (hnd : dims.Nodup) (hlt : ∀ d ∈ dims, d < bs.length) :
    (⟨t, bs⟩ : FTn K).varianceConditionalExpectation M (.idx dims) = if dims = [] then .ok 0 else .error .attributeError := by
  obtain ⟨y, y1, y2, y3⟩ := mean_spec t a h bs hc M hM
  by_cases hne : dims = []
  · subst hne
    simp [FTn.varianceConditionalExpectation, y1, bind, Except.bind, DimsArg.sorted]
  · obtain ⟨g, g1, _⟩ := conditionalExpectation_eval t a h bs hc hcard M dims hne hnd hlt
    have he : (DimsArg.sorted (.idx dims)).isEmpty = false := by
      obtain ⟨d, hd⟩ := List.exists_mem_of_ne_nil _ hne
      have : d ∈ DimsArg.sorted (.idx dims) := (mem_sortDims d).2 hd
      simpa using List.ne_nil_of_mem this
    rw [if_neg hne]
    simp only [FTn.varianceConditionalExpectation, y1, he, g1, dotProductExpectation_refused, bind, Except.bind, Bool.false_eq_true, if_false]

/-- C147, what holds: the norm of a functional tensor with evaluated bases, one per dimension with as many columns as the dimension has
entries, is the norm of its tensor. -/
theorem normSqEvaluated_partial [CommSemiring K] (a : Arr K) (evals : List (Arr K))
    (h : List.Forall₂ (fun (e : Arr K) c => e.shape.getD 1 0 = c) evals a.shape) :
    normSqEvaluated a evals = .ok (sumBox a.shape (fun idx => a.get idx * a.get idx)) := by
  have hms : evals.map (fun x => (eyeArr (x.shape.getD 1 0) : Arr K)) = a.shape.map eyeArr := by
    apply List.ext_getElem (by simp [h.length_eq])
    intro i h1 h2
    rw [List.getElem_map, List.getElem_map]
    congr 1
    exact (List.forall₂_iff_get.1 h).2 i (by simpa using h1) (by simpa using h2)
  obtain ⟨b, b1, b2, b3⟩ := Verif.tensorMatrixProduct_all a (a.shape.map eyeArr) (by
    rw [List.forall₂_map_left_iff, List.forall₂_same]
    exact fun n _ => ⟨n, rfl⟩)
  have b1' : FullTensor.tensorMatrixProduct a (a.shape.map eyeArr) (some (List.range a.order)) = .ok b := b1
  have hbs : b.shape = a.shape := by
    rw [b2, List.map_map]
    conv_rhs => rw [← List.map_id a.shape]
    exact List.map_congr_left (fun n _ => rfl)
  simp only [normSqEvaluated, hms, b1', bind, Except.bind]
  congr 1
  unfold FullTensor.dot Arr.sumAll Arr.zipWith
  rw [hbs]
  apply sumBox_congr
  intro idx hi
  dsimp only
  congr 1
  rw [b3 idx (by rw [hbs]; exact hi)]
  have : ∀ s, InBox a.shape s → a.get s * (List.zipWith (fun (M : Arr K) (p : Nat × Nat) => M.get [p.1, p.2]) (a.shape.map eyeArr)
      (idx.zip s)).prod = a.get s * (if idx = s then 1 else 0) := by
    intro s hs
    congr 1
    have := delta_prod (R := K) (G := fun _ i j => if i = j then 1 else 0) (size := id) a.shape idx s (fun _ _ _ _ _ _ => rfl)
      (by rw [List.map_id]; exact hi) (by rw [List.map_id]; exact hs)
    rw [← this, List.zipWith_map_left]
    rfl
  rw [sumBox_congr this, sumBox_pick hi]

example : List.Forall₂ (fun (e : Arr Int) c => e.shape.getD 1 0 = c) [⟨[5, 2], fun _ => 0⟩, ⟨[5, 3], fun _ => 0⟩]
    (⟨[2, 3], fun i => (i.sum : Int)⟩ : Arr Int).shape := .cons rfl (.cons rfl .nil)

end FunctionalTensor
end Verif
