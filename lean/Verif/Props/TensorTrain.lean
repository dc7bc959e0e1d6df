import Verif.Model.TensorTrain
import Verif.Spec.TensorTrain
import Verif.Props.TreeFull
import Verif.Props.DimensionTreeCtor

/-!
# Tensor trains
-/

namespace Verif.TreeBased
open DimTree DTree Finset

variable {R : Type}

/-- The node of the core `k`. -/
def ttNode (d k : Nat) : Nat := if k = d - 1 then 1 else 2 * d - 2 - 2 * k

theorem ttNode_inj {d k l : Nat} (hk : k < d) (hl : l < d) (h : ttNode d k = ttNode d l) : k = l := by
  unfold ttNode at h
  split_ifs at h <;> omega

theorem tt_isNode (d : Nat) (i : Nat) : IsNode (linear (List.range d)) i ↔ 1 ≤ i ∧ i ≤ 2 * d - 1 := by
  unfold IsNode
  simp [linear]

theorem tt_children (d : Nat) (hd : 2 ≤ d) (k : Nat) (h1 : 1 ≤ k) (hk : k < d) :
    (linear (List.range d)).children (ttNode d k) = [ttNode d (k - 1), 2 * (d - k) + 1] := by
  apply children_eq_of_sorted
  · rw [tt_isNode]; unfold ttNode; split_ifs <;> omega
  · unfold ttNode
    simp only [List.pairwise_cons, List.mem_singleton, forall_eq, List.not_mem_nil, false_imp_iff, implies_true, List.Pairwise.nil,
      and_true]
    split_ifs <;> omega
  · intro j
    rw [linear_edge d hd]
    simp only [List.mem_cons, List.not_mem_nil, or_false]
    unfold ttNode
    constructor
    · rintro (h | ⟨l, h⟩)
      · split_ifs at h ⊢ <;> omega
      · split_ifs at h ⊢ <;> omega
    · intro h
      by_cases hk' : k = d - 1
      · left
        rw [if_neg (by omega)] at h
        rw [if_pos hk']
        omega
      · right
        rw [if_neg (by omega)] at h
        rw [if_neg hk']
        exact ⟨d - 2 - k, by omega, by omega, by omega⟩

theorem tt_parent (d : Nat) (hd : 2 ≤ d) (k : Nat) (hk : k + 1 < d) : (linear (List.range d)).parent (ttNode d k) = ttNode d (k + 1) := by
  apply parent_eq_of_edge (linear_valid_id d hd).unique_parent
  have hn : IsNode (linear (List.range d)) (ttNode d (k + 1)) := by
    rw [tt_isNode]; unfold ttNode; split_ifs <;> omega
  rw [← mem_children _ _ hn, tt_children d hd (k + 1) (by omega) hk]
  simp

theorem tt_parent_leaf (d : Nat) (hd : 2 ≤ d) (k : Nat) (h1 : 1 ≤ k) (hk : k < d) :
    (linear (List.range d)).parent (2 * (d - k) + 1) = ttNode d k := by
  apply parent_eq_of_edge (linear_valid_id d hd).unique_parent
  have hn : IsNode (linear (List.range d)) (ttNode d k) := by
    rw [tt_isNode]; unfold ttNode; split_ifs <;> omega
  rw [← mem_children _ _ hn, tt_children d hd k h1 hk]
  simp

theorem ttAssign_spec (d : Nat) (hd : 2 ≤ d) : ∀ (Gs : List (Arr R)) (k : Nat) (ts : Nat → Arr R), k + Gs.length = d →
    (∀ m (hm : m < Gs.length), ttAssign (linear (List.range d)) (ttNode d k) Gs ts (ttNode d (k + m)) = Gs[m]) ∧
      ∀ j, (∀ m < Gs.length, j ≠ ttNode d (k + m)) → ttAssign (linear (List.range d)) (ttNode d k) Gs ts j = ts j
  | [], k, ts, h => ⟨fun m hm => absurd hm (by simp), fun j _ => rfl⟩
  | G :: Gs, k, ts, h => by
    rw [List.length_cons] at h
    unfold ttAssign
    rcases Gs with _ | ⟨G', Gs⟩
    · refine ⟨fun m hm => ?_, fun j hj => ?_⟩
      · have : m = 0 := by simpa using hm
        subst this
        simp [ttAssign, upd]
      · have := hj 0 (by simp)
        simp only [ttAssign, upd]
        rw [if_neg (by simpa using this)]
    · rw [tt_parent d hd k (by simp at h; omega)]
      obtain ⟨h1, h2⟩ := ttAssign_spec d hd (G' :: Gs) (k + 1) (upd ts (ttNode d k) G) (by omega)
      refine ⟨fun m hm => ?_, fun j hj => ?_⟩
      · rcases m with _ | m
        · rw [h2 _ (fun m hm' e => by
            have := ttNode_inj (by omega) (by simp at h hm'; omega) e
            omega)]
          simp [upd]
        · have := h1 m (by simpa using hm)
          rw [show k + 1 + m = k + (m + 1) by omega] at this
          rw [this]
          rfl
      · rw [h2 j (fun m hm => by
          have := hj (m + 1) (by simpa using hm)
          rw [show k + 1 + m = k + (m + 1) by omega]
          exact this)]
        unfold upd
        rw [if_neg (by simpa using hj 0 (by simp))]

theorem foldl_upd_const (E : Arr R) : ∀ (l : List Nat) (ts : Nat → Arr R) (j : Nat),
    l.foldl (fun ts c => upd ts c E) ts j = if j ∈ l then E else ts j
  | [], ts, j => by simp
  | c :: l, ts, j => by
    rw [List.foldl_cons, foldl_upd_const E l]
    by_cases h : j ∈ l
    · simp [h]
    · by_cases h' : j = c
      · simp [h', upd]
      · simp [h, h', upd]

/-- C190. `tensor_train(cores)`: for compatible cores, the tree-based tensor returned is well formed, its tree is the linear tree, its shape
is that of the cores, and its entries are the products of the slices of the cores. -/
theorem tensorTrain_spec [CommSemiring R] (cores : List (Arr R)) (isArray : Bool) (hd : 2 ≤ cores.length) (n r : Nat → Nat)
    (tail : List Nat) (hG : TTShapes (fun k => cores.getD k ⟨[0], fun _ => 0⟩) cores.length n r tail) :
    ∃ x y, tensorTrain cores isArray none = .ok x ∧ WF x ∧ x.tree = linear (List.range cores.length) ∧
      x.shape = (List.range cores.length).map n ∧ full x = .ok y ∧ y.shape = (List.range cores.length).map n ++ tail ∧
      ∀ idx e, InBox ((List.range cores.length).map n) idx → InBox tail e →
        y.get (idx ++ e) = ttEntry (fun k => cores.getD k ⟨[0], fun _ => 0⟩) cores.length idx e := by
  set d := cores.length with hdef
  set G : Nat → Arr R := fun k => cores.getD k ⟨[0], fun _ => 0⟩ with hGdef
  set T := linear (List.range d) with hT
  have hV : Valid T := linear_valid_id d hd
  have hd2i : T.dim2ind = (2 * d - 2) :: (List.range (d - 1)).map (fun k => 2 * (d - 1 - k) + 1) := linear_dim2ind d (by omega)
  have hleafs : ∀ c, c ∈ T.dim2ind ↔ c = ttNode d 0 ∨ ∃ k, 1 ≤ k ∧ k < d ∧ c = 2 * (d - k) + 1 := by
    intro c
    rw [hd2i, List.mem_cons, List.mem_map]
    have e0 : ttNode d 0 = 2 * d - 2 := by unfold ttNode; rw [if_neg (by omega)]; omega
    rw [e0]
    refine or_congr_right ?_
    constructor
    · rintro ⟨k, hk, rfl⟩
      rw [List.mem_range] at hk
      exact ⟨k + 1, by omega, by omega, by omega⟩
    · rintro ⟨k, h1, h2, rfl⟩
      exact ⟨k - 1, List.mem_range.2 (by omega), by omega⟩
  -- the tensors
  set ts : Nat → Arr R := T.dim2ind.tail.foldl (fun ts c => upd ts c ⟨[0], fun _ => 0⟩)
    (ttAssign T (T.dim2ind.headD 0) cores (fun _ => ⟨[0], fun _ => 0⟩)) with hts
  have htail : ∀ c, c ∈ T.dim2ind.tail ↔ ∃ k, 1 ≤ k ∧ k < d ∧ c = 2 * (d - k) + 1 := by
    intro c
    rw [hd2i, List.tail_cons, List.mem_map]
    constructor
    · rintro ⟨k, hk, rfl⟩
      rw [List.mem_range] at hk
      exact ⟨k + 1, by omega, by omega, by omega⟩
    · rintro ⟨k, h1, h2, rfl⟩
      exact ⟨k - 1, List.mem_range.2 (by omega), by omega⟩
  have hhead : T.dim2ind.headD 0 = ttNode d 0 := by
    rw [hd2i]
    unfold ttNode
    rw [if_neg (by omega)]
    rfl
  have hodd : ∀ k l, k < d → 1 ≤ l → l < d → ttNode d k ≠ 2 * (d - l) + 1 := by
    intro k l h1 h2 h3
    unfold ttNode
    split_ifs <;> omega
  have hcore : ∀ k, k < d → ts (ttNode d k) = G k := by
    intro k hk
    rw [hts, foldl_upd_const, if_neg (fun h => by
      obtain ⟨l, h1, h2, h3⟩ := (htail _).1 h
      exact hodd k l hk h1 h2 h3), hhead]
    have := (ttAssign_spec d hd cores 0 (fun _ => ⟨[0], fun _ => 0⟩) (by omega)).1 k hk
    rw [Nat.zero_add] at this
    rw [this]
    exact (List.getD_eq_getElem cores _ hk).symm
  have hempty : ∀ l, 1 ≤ l → l < d → (ts (2 * (d - l) + 1)).shape = [0] := by
    intro l h1 h2
    rw [hts, foldl_upd_const, if_pos ((htail _).2 ⟨l, h1, h2, rfl⟩)]
  have hnode : ∀ i, IsNode T i → i ∉ T.dim2ind → ∃ k, 1 ≤ k ∧ k < d ∧ i = ttNode d k := by
    intro i hi hl
    rw [hT, tt_isNode] at hi
    by_cases h1 : i = 1
    · exact ⟨d - 1, by omega, by omega, by unfold ttNode; rw [if_pos rfl]; exact h1⟩
    · rcases Nat.even_or_odd' i with ⟨c, hc | hc⟩
      · have : i ≠ 2 * d - 2 := fun e => hl ((hleafs i).2 (Or.inl (by unfold ttNode; rw [if_neg (by omega)]; omega)))
        exact ⟨d - 1 - c, by omega, by omega, by unfold ttNode; rw [if_neg (by omega)]; omega⟩
      · exact absurd ((hleafs i).2 (Or.inr ⟨d - c, by omega, by omega, by omega⟩)) hl
  have hnl : ∀ k, 1 ≤ k → k < d → ttNode d k ∉ T.dim2ind := by
    intro k h1 h2 h
    rcases (hleafs _).1 h with h | ⟨l, h3, h4, h⟩
    · have := ttNode_inj h2 (by omega) h; omega
    · exact hodd k l h2 h3 h4 h
  have hshape : ∀ k, k < d → 1 ≤ k → (G k).shape = r k :: n k :: (if k = d - 1 then tail else [r (k + 1)]) := by
    intro k hk h1
    by_cases h : k = d - 1
    · rw [if_pos h, h]; exact hG.last
    · rw [if_neg h]; exact hG.middle k h1 (by omega)
  set x : TBT R := ⟨T, ts⟩ with hx
  have hprod : ∀ k, k < d → (G k).shape.prod ≠ 0 := by
    intro k hk
    rcases Nat.eq_zero_or_pos k with rfl | h1
    · rw [hG.first]
      have := hG.posN 0 (by omega)
      have := hG.posR 1 (by omega) (by omega)
      simp; omega
    · rw [hshape k hk h1, List.prod_cons, List.prod_cons]
      have h2 := hG.posN k hk
      have h3 := hG.posR k h1 hk
      refine mul_ne_zero (by omega) (mul_ne_zero (by omega) ?_)
      split_ifs with h
      · exact hG.posT
      · have := hG.posR (k + 1) (by omega) (by omega)
        simp; omega
  have hact : ∀ k, k < d → x.active (ttNode d k) = true := by
    intro k hk
    show ((ts (ttNode d k)).shape.prod != 0) = true
    rw [hcore k hk, bne_iff_ne]
    exact hprod k hk
  have hinact : ∀ l, 1 ≤ l → l < d → x.active (2 * (d - l) + 1) = false := by
    intro l h1 h2
    show ((ts (2 * (d - l) + 1)).shape.prod != 0) = false
    rw [hempty l h1 h2]
    rfl
  have hlast : ∀ k, k + 1 < d → x.lastDim (ttNode d k) = r (k + 1) := by
    intro k hk
    show (ts (ttNode d k)).shape.getLast?.getD 0 = _
    rw [hcore k (by omega)]
    rcases Nat.eq_zero_or_pos k with rfl | h1
    · rw [hG.first]; rfl
    · rw [hG.middle k h1 (by omega)]; rfl
  have hch : ∀ k, 1 ≤ k → k < d → T.children (ttNode d k) = [ttNode d (k - 1), 2 * (d - k) + 1] := tt_children d hd
  have hleafsize : ∀ l, 1 ≤ l → l < d → x.leafSize (2 * (d - l) + 1) = n l := by
    intro l h1 h2
    unfold TBT.leafSize
    rw [hinact l h1 h2]
    simp only [Bool.false_eq_true, if_false]
    have hp : x.tree.parent (2 * (d - l) + 1) = ttNode d l := tt_parent_leaf d hd l h1 h2
    have hcn : x.tree.childNumber (2 * (d - l) + 1) = 2 := by
      unfold childNumber
      have hne : ttNode d l ≠ 0 := by unfold ttNode; split_ifs <;> omega
      rw [hp, if_neg hne]
      have : x.tree.children (ttNode d l) = [ttNode d (l - 1), 2 * (d - l) + 1] := hch l h1 h2
      rw [this, if_pos (by simp), List.idxOf_cons_ne _ (hodd (l - 1) l (by omega) h1 h2), List.idxOf_cons_self]
    rw [hp, hcn]
    show (ts (ttNode d l)).shape.getD 1 0 = _
    rw [hcore l h2, hshape l h2 h1]
    rfl
  have hchildSize : ∀ k, 1 ≤ k → k < d → (T.children (ttNode d k)).map (childSize x) = [r k, n k] := by
    intro k h1 h2
    rw [hch k h1 h2]
    simp only [List.map_cons, List.map_nil]
    unfold childSize
    rw [hact (k - 1) (by omega), hinact k h1 h2, hlast (k - 1) (by omega), hleafsize k h1 h2, show k - 1 + 1 = k by omega]
    simp
  have hrankShape : ∀ k, 1 ≤ k → k < d → rankShape x (ttNode d k) = if k = d - 1 then tail else [r (k + 1)] := by
    intro k h1 h2
    show (ts (ttNode d k)).shape.drop (T.children (ttNode d k)).length = _
    rw [hcore k h2, hch k h1 h2, hshape k h2 h1]
    rfl
  have hroot : IsRoot T 1 := by
    refine ⟨by rw [hT, tt_isNode]; omega, fun i h => ?_⟩
    rw [hT, linear_edge d hd] at h
    rcases h with h | ⟨l, h⟩ <;> omega
  have hWF : WF x := by
    refine ⟨hV, ?_, ?_, ?_⟩
    · show 2 ≤ T.dim2ind.length
      rw [hT, linear_length d (by omega)]
      exact hd
    · intro c hc ha
      rcases (hleafs c).1 hc with rfl | ⟨l, h1, h2, rfl⟩
      · refine ⟨n 0, r 1, ?_⟩
        show (ts (ttNode d 0)).shape = _
        rw [hcore 0 (by omega)]
        exact hG.first
      · rw [hinact l h1 h2] at ha
        cases ha
    · intro i hi hl
      obtain ⟨k, h1, h2, rfl⟩ := hnode i hi hl
      refine ⟨hact k h2, ?_, ?_, ?_⟩
      · show (ts (ttNode d k)).shape = (T.children (ttNode d k)).map (childSize x) ++ _
        rw [hrankShape k h1 h2, hcore k h2, hchildSize k h1 h2, hshape k h2 h1]
        rfl
      · rw [hrankShape k h1 h2]
        split_ifs
        · exact hG.short
        · simp
      · intro hr
        rw [hrankShape k h1 h2]
        split_ifs with h
        · exfalso
          apply hr
          show IsRoot T (ttNode d k)
          unfold ttNode
          rw [if_pos h]
          exact hroot
        · rfl
  have hxs : x.shape = (List.range d).map n := by
    show T.dim2ind.map x.leafSize = _
    rw [hd2i, List.map_cons, List.map_map]
    have e0 : x.leafSize (2 * d - 2) = n 0 := by
      have e : 2 * d - 2 = ttNode d 0 := by unfold ttNode; rw [if_neg (by omega)]; omega
      rw [e]
      unfold TBT.leafSize
      rw [hact 0 (by omega)]
      simp only [if_true]
      show (ts (ttNode d 0)).shape.getD 0 0 = _
      rw [hcore 0 (by omega), hG.first]
      rfl
    have ed : List.range d = 0 :: (List.range (d - 1)).map (· + 1) := by
      conv_lhs => rw [show d = d - 1 + 1 by omega, List.range_succ_eq_map]
    rw [e0, ed, List.map_cons, List.map_map]
    congr 1
    apply List.map_congr_left
    intro k hk
    rw [List.mem_range] at hk
    have := hleafsize (k + 1) (by omega) (by omega)
    simp only [Function.comp]
    rw [← this]
    congr 1
    omega
  obtain ⟨y, rt, hy, hrt, hys, hyv⟩ := full_spec x hWF
  obtain ⟨V, hVal⟩ := exists_value x hV
  have hrt1 : rt = 1 := by
    obtain ⟨rt', hrt', hroot'⟩ := root_ok hV
    have : x.tree.root = .ok rt' := hrt'
    rw [hrt] at this
    cases this
    exact root_unique hV hroot' hroot
  have hr1 : (1 : Nat) = ttNode d (d - 1) := by unfold ttNode; rw [if_pos rfl]
  have hdim : ∀ k, 1 ≤ k → k < d → dimOf T (2 * (d - k) + 1) = k := by
    intro k h1 h2
    have hnd := hV.nodup
    have hk : k < T.dim2ind.length := by rw [hT, linear_length d (by omega)]; exact h2
    have e : T.dim2ind[k] = 2 * (d - k) + 1 := by
      obtain ⟨m, rfl⟩ : ∃ m, k = m + 1 := ⟨k - 1, by omega⟩
      simp only [hd2i, List.getElem_cons_succ, List.getElem_map, List.getElem_range]
      omega
    unfold dimOf
    rw [← e]
    exact List.Nodup.idxOf_getElem hnd k hk
  have hdim0 : dimOf T (ttNode d 0) = 0 := by
    unfold dimOf
    rw [hd2i, show ttNode d 0 = 2 * d - 2 by unfold ttNode; rw [if_neg (by omega)]; omega]
    exact List.idxOf_cons_self
  have hval : ∀ k, 1 ≤ k → k < d → ∀ idx e, V (ttNode d k) idx e =
      ∑ s ∈ range (r k), V (ttNode d (k - 1)) idx [s] * (G k).get (s :: idx.getD k 0 :: e) := by
    intro k h1 h2 idx e
    have hn := hVal.node (ttNode d k) (by
      show IsNode T _
      rw [hT, tt_isNode]; unfold ttNode; split_ifs <;> omega) (hnl k h1 h2) idx e
    rw [hn]
    show childSum x V idx (T.children (ttNode d k)) (fun t => (ts (ttNode d k)).get (t ++ e)) = _
    rw [hch k h1 h2, hcore k h2]
    unfold childSum
    rw [hact (k - 1) (by omega), if_pos rfl, hlast (k - 1) (by omega), show k - 1 + 1 = k by omega]
    apply sum_congr rfl
    intro s _
    congr 1
    unfold childSum
    rw [hinact k h1 h2]
    simp only [Bool.false_eq_true, if_false]
    unfold childSum
    show (G k).get (s :: idx.getD (dimOf T (2 * (d - k) + 1)) 0 :: ([] ++ e)) = _
    rw [hdim k h1 h2]
    rfl
  have hvec : ∀ k, k + 1 < d → ∀ idx s, V (ttNode d k) idx [s] = ttVec G idx k s := by
    intro k
    induction k with
    | zero =>
      intro _ idx s
      have := hVal.leaf (ttNode d 0) ((hleafs _).2 (Or.inl rfl)) (hact 0 (by omega)) idx [s]
      rw [this]
      show (ts (ttNode d 0)).get (idx.getD (dimOf T (ttNode d 0)) 0 :: [s]) = _
      rw [hcore 0 (by omega), hdim0]
      rfl
    | succ k ih =>
      intro hk idx s
      rw [hval (k + 1) (by omega) (by omega)]
      unfold ttVec
      rw [show (G (k + 1)).shape.getD 0 0 = r (k + 1) by rw [hshape (k + 1) (by omega) (by omega)]; rfl]
      apply sum_congr rfl
      intro a _
      rw [show k + 1 - 1 = k by omega, ih (by omega)]
  refine ⟨x, y, ?_, hWF, rfl, hxs, hy, ?_, ?_⟩
  · unfold tensorTrain ttCores
    dsimp only [bind, Except.bind]
    unfold mk
    rw [if_pos]
    rw [List.all_eq_true]
    intro i hi
    have hi' : IsNode T i ∧ i ∉ T.dim2ind := by
      unfold internalNodes at hi
      rw [List.mem_filter, mem_nodes] at hi
      refine ⟨hi.1, fun h => ?_⟩
      have h2 := hi.2
      rw [Bool.not_eq_true', ← Bool.not_eq_true, List.contains_iff_mem] at h2
      exact h2 h
    obtain ⟨k, h1, h2, rfl⟩ := hnode i hi'.1 hi'.2
    exact hact k h2
  · rw [hys, hxs, hrt1, hr1, hrankShape (d - 1) (by omega) (by omega), if_pos rfl]
  · intro idx e hi he
    rw [hyv V hVal idx e (by rw [hxs]; exact hi)
      (by rw [hrt1, hr1, hrankShape (d - 1) (by omega) (by omega), if_pos rfl]; exact he), hrt1, hr1,
      hval (d - 1) (by omega) (by omega)]
    unfold ttEntry
    rw [show (G (d - 1)).shape.getD 0 0 = r (d - 1) by rw [hG.last]; rfl]
    apply sum_congr rfl
    intro a _
    rw [show d - 1 - 1 = d - 2 by omega, hvec (d - 2) (by omega)]

/-- C191. `tensor_train(cores, dims)` with an array of cores: the core `i` is used for the dimension `dims[i]`. -/
theorem tensorTrain_dims_partial [CommSemiring R] (cores : List (Arr R)) (dims : List Nat) (hp : dims.Perm (List.range cores.length)) :
    ∃ cores' : List (Arr R), cores'.length = cores.length ∧ tensorTrain cores true (some dims) = tensorTrain cores' true none ∧
      ∀ i (hi : i < cores.length), cores'[dims.getD i 0]? = some cores[i] := by
  have hlen : dims.length = cores.length := by rw [hp.length_eq, List.length_range]
  have hnd : dims.Nodup := hp.nodup_iff.2 List.nodup_range
  have hinv : FullTensor.argsort dims = (List.range cores.length).map (fun k => dims.idxOf k) := by
    rw [Arr.argsort_eq_invPerm hp]
    unfold Arr.invPerm
    rw [hlen]
  have hidx : ∀ k, k < cores.length → dims.idxOf k < cores.length := by
    intro k hk
    rw [← hlen]
    exact List.idxOf_lt_length_of_mem (hp.mem_iff.2 (List.mem_range.2 hk))
  refine ⟨(List.range cores.length).map (fun k => cores.getD (dims.idxOf k) ⟨[0], fun _ => 0⟩), by simp, ?_, ?_⟩
  · have hc : ttCores cores true (some dims) = .ok ((List.range cores.length).map (fun k => cores.getD (dims.idxOf k) ⟨[0], fun _ => 0⟩)) := by
      unfold ttCores
      simp only [Bool.not_true, Bool.false_eq_true, if_false, hlen, ne_eq, not_true_eq_false]
      rw [hinv]
      have : ∀ l : List Nat, (∀ k ∈ l, k < cores.length) → (l.map (fun k => dims.idxOf k)).mapM (fun i => match cores[i]? with
          | some G => (Except.ok G : Py (Arr R))
          | none => .error .indexError) = .ok (l.map (fun k => cores.getD (dims.idxOf k) ⟨[0], fun _ => 0⟩)) := by
        intro l
        induction l with
        | nil => intro _; rfl
        | cons k l ih =>
          intro hl
          have hk := hidx k (hl k (by simp))
          rw [List.map_cons, List.mapM_cons, ih (fun j hj => hl j (by simp [hj])), List.getElem?_eq_getElem hk]
          simp only [bind, Except.bind, pure, Except.pure, List.map_cons]
          rw [List.getD_eq_getElem _ _ hk]
      exact this _ (fun k hk => List.mem_range.1 hk)
    unfold tensorTrain
    rw [hc]
    simp only [ttCores, bind, Except.bind, List.length_map, List.length_range]
  · intro i hi
    have hi' : i < dims.length := by omega
    have hlt : dims.getD i 0 < cores.length := by
      rw [List.getD_eq_getElem _ _ hi']
      exact List.mem_range.1 (hp.mem_iff.1 (List.getElem_mem hi'))
    rw [List.getElem?_map, List.getElem?_range hlt, Option.map_some, List.getD_eq_getElem _ _ hi',
      List.Nodup.idxOf_getElem hnd i hi', List.getD_eq_getElem _ _ hi]

/-- C191 is false for a list of cores: every list of dimensions is refused. -/
theorem tensorTrain_list_refused [Zero R] (cores : List (Arr R)) (dims : List Nat) :
    tensorTrain cores false (some dims) = .error .typeError := rfl

/-- Three cores of a tensor of shape `2 × 3 × 2`. -/
def exCores : List (Arr Int) :=
  [⟨[2, 2], fun t => t.getD 0 0 + 2 * t.getD 1 0⟩, ⟨[2, 3, 1], fun t => 1 + t.getD 0 0 * t.getD 1 0⟩, ⟨[1, 2], fun t => t.getD 1 0 - 3⟩]

/-- The hypotheses of C190 are met by `exCores`. -/
example : TTShapes (fun k => exCores.getD k ⟨[0], fun _ => 0⟩) exCores.length (fun k => if k = 1 then 3 else 2) (fun k => if k = 1 then 2 else 1) [] ∧
    (do let x ← tensorTrain exCores false none
        let y ← full x
        pure (y.shape, y.get [1, 2, 0]) : Py _) = .ok ([2, 3, 2], -30) := by
  refine ⟨⟨rfl, fun k h1 h2 => ?_, rfl, by simp, fun k _ => ?_, fun k _ _ => ?_, by simp⟩, by decide +kernel⟩
  · have : k = 1 := by have : exCores.length = 3 := rfl; omega
    subst this
    rfl
  · split_ifs <;> omega
  · split_ifs <;> omega

/-- The hypothesis of C191 is met. -/
example : [2, 0, 1].Perm (List.range exCores.length) := by decide

end Verif.TreeBased
