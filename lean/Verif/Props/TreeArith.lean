import Verif.Lemmas.Shaped
import Verif.Props.FullTensorEval
import Verif.Props.DimensionTreeEq

/-!
# Arithmetic of tree-based tensors (C35)
-/

namespace Verif.TreeBased

open Verif.Arr Verif.DimTree Finset

variable {R : Type}

/-! ### negation, product by a scalar -/

/-- `-x`. -/
theorem neg_full [CommRing R] (x : TBT R) (h : WF x) :
    ∃ x' y z, neg x = .ok x' ∧ WF x' ∧ full x = .ok y ∧ full x' = .ok z ∧ z ≃ₐ FullTensor.neg y := by
  obtain ⟨r, hr, _⟩ := root_ok h.valid
  obtain ⟨y, z, h1, h2, h3, h4, h5⟩ := root_scale x h r hr (-1) (FullTensor.neg (x.tensors r)) rfl
    (fun t => by simp [FullTensor.neg, Arr.map])
  refine ⟨⟨x.tree, upd x.tensors r (FullTensor.neg (x.tensors r))⟩, y, z, ?_, h3, h1, h2, h4, ?_⟩
  · unfold neg; simp only [hr, bind, Except.bind]
  · intro idx hi
    rw [h5 idx (h4 ▸ hi)]; simp [FullTensor.neg, Arr.map]

/-- `c * x` and `x * c`. -/
theorem smul_full [CommSemiring R] (c : R) (x : TBT R) (h : WF x) :
    ∃ x' y z, smul c x = .ok x' ∧ WF x' ∧ full x = .ok y ∧ full x' = .ok z ∧ z ≃ₐ FullTensor.smul c y := by
  obtain ⟨r, hr, _⟩ := root_ok h.valid
  obtain ⟨y, z, h1, h2, h3, h4, h5⟩ := root_scale x h r hr c (FullTensor.smul c (x.tensors r)) rfl
    (fun t => by simp [FullTensor.smul, Arr.map, mul_comm])
  refine ⟨⟨x.tree, upd x.tensors r (FullTensor.smul c (x.tensors r))⟩, y, z, ?_, h3, h1, h2, h4, ?_⟩
  · unfold smul; simp only [hr, bind, Except.bind]
  · intro idx hi
    rw [h5 idx (h4 ▸ hi)]; simp [FullTensor.smul, Arr.map, mul_comm]

/-! ### loops on the nodes -/

theorem forNodes_spec {T : DTree} {ts : Nat → Arr R} {f : Nat → Arr R → Py (Arr R)} {g : Nat → Arr R}
    (h : ∀ i, IsNode T i → f i (ts i) = .ok (g i)) :
    forNodes T ts f = .ok (fun i => if i ∈ T.nodes then g i else ts i) := by
  unfold forNodes
  have gen : ∀ (l : List Nat) (us : Nat → Arr R), l.Nodup → (∀ i ∈ l, IsNode T i ∧ us i = ts i) →
      (l.foldlM (fun us nod => do .ok (upd us nod (← f nod (us nod)))) us : Py _) =
        .ok (fun i => if i ∈ l then g i else us i) := by
    intro l
    induction l with
    | nil => intro us _ _; simp only [List.not_mem_nil, if_false]; rfl
    | cons a l ih =>
      intro us hnd hm
      rw [List.nodup_cons] at hnd
      obtain ⟨ha, hus⟩ := hm a (by simp)
      rw [List.foldlM_cons, hus, h a ha]
      simp only [bind, Except.bind]
      have := ih (upd us a (g a)) hnd.2 (fun i hi => by
        refine ⟨(hm i (by simp [hi])).1, ?_⟩
        have : i ≠ a := fun e => hnd.1 (e ▸ hi)
        unfold upd; rw [if_neg this]
        exact (hm i (by simp [hi])).2)
      simp only [bind, Except.bind] at this
      rw [this]
      congr 1
      funext i
      unfold upd
      by_cases hia : i = a
      · subst hia; simp [hnd.1]
      · simp [hia]
  exact gen T.nodes ts nodup_nodes (fun i hi => ⟨(mem_nodes i).1 hi, rfl⟩)

/-! ### concatenation of node tensors -/

/-- `cat` as a sum of the two blocks. -/
theorem cat_sum [AddCommMonoid R] (x y : Arr R) (dims : List Nat) (hnd : dims.Nodup)
    (hlt : ∀ k ∈ dims, k < x.order) (ho : x.order = y.order)
    (hoff : ∀ k, k < x.order → k ∉ dims → x.shape.getD k 0 = y.shape.getD k 0) :
    ∃ z, FullTensor.cat x y (some dims) = .ok z ∧
      z.shape = (List.range x.order).map (fun k =>
        if k ∈ dims then x.shape.getD k 0 + y.shape.getD k 0 else x.shape.getD k 0) ∧
      ∀ idx, InBox z.shape idx → z.get idx =
        (if ∀ k ∈ dims, idx.getD k 0 < x.shape.getD k 0 then x.get idx else 0) +
        (if ∀ k ∈ dims, x.shape.getD k 0 ≤ idx.getD k 0 then y.get (FullTensor.shiftBack dims x.shape idx) else 0) := by
  by_cases hne : dims = []
  · subst hne
    have hshape : x.shape = y.shape := by
      apply List.ext_getElem ho
      intro k h1 h2
      have := hoff k h1 (by simp)
      rwa [List.getD_eq_getElem _ _ h1, List.getD_eq_getElem _ _ h2] at this
    have hrange : (List.range x.order).map (fun k => if k ∈ ([] : List Nat) then x.shape.getD k 0 + y.shape.getD k 0 else x.shape.getD k 0) = x.shape := by
      apply List.ext_getElem (by simp [Arr.order])
      intro k h1 h2
      simp only [List.getElem_map, List.getElem_range, List.not_mem_nil, if_false]
      rw [List.getD_eq_getElem _ _ h2]
    have hoffeq : applyPerm (FullTensor.setdiffRange x.order []) x.shape = applyPerm (FullTensor.setdiffRange x.order []) y.shape := by
      rw [hshape]
    have hz : List.zipWith (· - ·) x.shape x.shape = List.replicate x.order 0 := by
      apply List.ext_getElem (by simp [Arr.order])
      intro k h1 h2
      simp
    refine ⟨(x.pad (List.replicate x.order 0) (List.replicate x.order 0)).zipWith (· + ·)
      (y.pad (List.replicate x.order 0) (List.replicate x.order 0)), ?_, ?_, ?_⟩
    · unfold FullTensor.cat
      rw [if_neg (by simp [ho])]
      simp only [Option.getD_some]
      rw [if_neg (by simp [hoffeq]), if_neg (by simp), hrange, hz, ← hshape, hz]
    · rw [hrange]
      show List.zipWith (· + ·) (List.zipWith (· + ·) (List.replicate x.order 0) x.shape) (List.replicate x.order 0) = _
      apply List.ext_getElem (by simp [Arr.order])
      intro k h1 h2
      simp
    · intro idx hidx
      have hidx : InBox (List.zipWith (· + ·) (List.zipWith (· + ·) (List.replicate x.order 0) x.shape) (List.replicate x.order 0)) idx := hidx
      have e0 : List.zipWith (· + ·) (List.zipWith (· + ·) (List.replicate x.order 0) x.shape) (List.replicate x.order 0) = x.shape := by
        apply List.ext_getElem (by simp [Arr.order])
        intro k h1 h2
        simp
      rw [e0] at hidx
      have hl : idx.length = x.order := hidx.length_eq
      have e1 : List.zipWith (· - ·) idx (List.replicate x.order 0) = idx := by
        apply List.ext_getElem (by simp [hl])
        intro k h1 h2
        simp
      have e2 : List.Forall₂ (· ≤ ·) (List.replicate x.order 0) idx := by
        rw [List.forall₂_iff_get]
        exact ⟨by simp [hl], fun k h1 h2 => by simp⟩
      have e3 : FullTensor.shiftBack [] x.shape idx = idx := by
        unfold FullTensor.shiftBack
        apply List.ext_getElem (by simp)
        intro k h1 h2
        simp only [List.getElem_map, List.getElem_range, List.not_mem_nil, if_false]
        rw [List.getD_eq_getElem _ _ h2]
      rw [e3]
      show (x.pad _ _).get idx + (y.pad _ _).get idx = _
      unfold Arr.pad
      simp only [e1]
      rw [if_pos ⟨hidx, e2⟩, if_pos ⟨hshape ▸ hidx, e2⟩]
      simp
  · obtain ⟨z, z1, z2, z3⟩ := FullTensor.cat_spec x y dims hne hnd hlt ho hoff
    refine ⟨z, z1, z2, fun idx hidx => ?_⟩
    obtain ⟨c1, c2, c3⟩ := z3 idx hidx
    obtain ⟨d, hd⟩ := List.exists_mem_of_ne_nil dims hne
    by_cases h1 : ∀ k ∈ dims, idx.getD k 0 < x.shape.getD k 0
    · rw [if_pos h1, if_neg (fun h2 => by have := h1 d hd; have := h2 d hd; omega), c1 h1, add_zero]
    · rw [if_neg h1]
      by_cases h2 : ∀ k ∈ dims, x.shape.getD k 0 ≤ idx.getD k 0
      · rw [if_pos h2, c2 h2, zero_add]
      · rw [if_neg h2, add_zero]
        push Not at h1 h2
        exact c3 h2 h1

/-! ### the sum -/

/-- All the rank subscripts of the active children are in the first block. -/
def inFirst (x : TBT R) (cs t : List Nat) : Prop :=
  ∀ k < cs.length, x.active (cs.getD k 0) = true → t.getD k 0 < x.lastDim (cs.getD k 0)

/-- All the rank subscripts of the active children are in the second block. -/
def inSecond (x : TBT R) (cs t : List Nat) : Prop :=
  ∀ k < cs.length, x.active (cs.getD k 0) = true → x.lastDim (cs.getD k 0) ≤ t.getD k 0

/-- The subscripts in the second block. -/
def shiftT (x : TBT R) : List Nat → List Nat → List Nat
  | c :: cs, s :: t => (if x.active c then s - x.lastDim c else s) :: shiftT x cs t
  | _, _ => []

theorem inFirst_cons (x : TBT R) (c : Nat) (cs : List Nat) (s : Nat) (t : List Nat) :
    inFirst x (c :: cs) (s :: t) ↔ (x.active c = true → s < x.lastDim c) ∧ inFirst x cs t := by
  constructor
  · intro h
    exact ⟨fun ha => h 0 (by simp) ha, fun k hk ha => h (k + 1) (by simpa using hk) (by simpa using ha)⟩
  · rintro ⟨h1, h2⟩ k hk ha
    cases k with
    | zero => exact h1 ha
    | succ k => exact h2 k (by simpa using hk) (by simpa using ha)

theorem inSecond_cons (x : TBT R) (c : Nat) (cs : List Nat) (s : Nat) (t : List Nat) :
    inSecond x (c :: cs) (s :: t) ↔ (x.active c = true → x.lastDim c ≤ s) ∧ inSecond x cs t := by
  constructor
  · intro h
    exact ⟨fun ha => h 0 (by simp) ha, fun k hk ha => h (k + 1) (by simpa using hk) (by simpa using ha)⟩
  · rintro ⟨h1, h2⟩ k hk ha
    cases k with
    | zero => exact h1 ha
    | succ k => exact h2 k (by simpa using hk) (by simpa using ha)

open Classical in
theorem childSum_first [CommSemiring R] {x z : TBT R} (ht : z.tree = x.tree) {V V' : Nat → List Nat → List Nat → R}
    {idx : List Nat} (cs : List Nat) (ly : Nat → Nat) (ha : ∀ c ∈ cs, z.active c = x.active c)
    (hl : ∀ c ∈ cs, x.active c → z.lastDim c = x.lastDim c + ly c)
    (hV : ∀ c ∈ cs, x.active c → ∀ s, s < x.lastDim c → V' c idx [s] = V c idx [s]) (k : List Nat → R) :
    childSum z V' idx cs (fun t => if inFirst x cs t then k t else 0) = childSum x V idx cs k := by
  induction cs generalizing k with
  | nil =>
    unfold childSum
    show (if inFirst x [] [] then k [] else 0) = k []
    rw [if_pos]
    intro k hk; simp at hk
  | cons c cs ih =>
    have ih' := fun k => ih (fun c' hc' => ha c' (by simp [hc'])) (fun c' hc' => hl c' (by simp [hc']))
      (fun c' hc' => hV c' (by simp [hc'])) k
    unfold childSum
    rw [ha c (by simp)]
    by_cases hac : x.active c = true
    · rw [if_pos hac, if_pos hac, hl c (by simp) hac, sum_range_add]
      have z2 : ∑ s ∈ range (ly c), V' c idx [x.lastDim c + s] * childSum z V' idx cs
          (fun t => if inFirst x (c :: cs) ((x.lastDim c + s) :: t) then k ((x.lastDim c + s) :: t) else 0) = 0 := by
        apply sum_eq_zero
        intro s _
        have : ∀ t, (if inFirst x (c :: cs) ((x.lastDim c + s) :: t) then k ((x.lastDim c + s) :: t) else 0) = 0 := by
          intro t
          rw [if_neg]
          rw [inFirst_cons]
          rintro ⟨h1, _⟩
          have := h1 hac; omega
        simp only [this]
        rw [childSum_zero, mul_zero]
      rw [z2, add_zero]
      apply sum_congr rfl
      intro s hs
      have hs := mem_range.1 hs
      rw [hV c (by simp) hac s hs, ← ih' (fun t => k (s :: t))]
      congr 1
      apply childSum_congr'
      intro t _
      simp only [inFirst_cons]
      by_cases hf : inFirst x cs t
      · rw [if_pos ⟨fun _ => hs, hf⟩, if_pos hf]
      · rw [if_neg (fun h => hf h.2), if_neg hf]
    · rw [if_neg hac, if_neg hac, ht, ← ih' (fun t => k (_ :: t))]
      apply childSum_congr'
      intro t _
      simp only [inFirst_cons]
      by_cases hf : inFirst x cs t
      · rw [if_pos ⟨fun h => absurd h hac, hf⟩, if_pos hf]
      · rw [if_neg (fun h => hf h.2), if_neg hf]

open Classical in
theorem childSum_second [CommSemiring R] {x y z : TBT R} (ht : z.tree = y.tree) {W V' : Nat → List Nat → List Nat → R}
    {idx : List Nat} (cs : List Nat) (hxy : ∀ c ∈ cs, y.active c = x.active c) (ha : ∀ c ∈ cs, z.active c = x.active c)
    (hl : ∀ c ∈ cs, x.active c → z.lastDim c = x.lastDim c + y.lastDim c)
    (hV : ∀ c ∈ cs, x.active c → ∀ s, s < y.lastDim c → V' c idx [x.lastDim c + s] = W c idx [s]) (k : List Nat → R) :
    childSum z V' idx cs (fun t => if inSecond x cs t then k (shiftT x cs t) else 0) = childSum y W idx cs k := by
  induction cs generalizing k with
  | nil =>
    unfold childSum
    show (if inSecond x [] [] then k (shiftT x [] []) else 0) = k []
    rw [if_pos]
    · rfl
    · intro k hk; simp at hk
  | cons c cs ih =>
    have ih' := fun k => ih (fun c' hc' => hxy c' (by simp [hc'])) (fun c' hc' => ha c' (by simp [hc']))
      (fun c' hc' => hl c' (by simp [hc'])) (fun c' hc' => hV c' (by simp [hc'])) k
    unfold childSum
    rw [ha c (by simp), hxy c (by simp)]
    by_cases hac : x.active c = true
    · rw [if_pos hac, if_pos hac, hl c (by simp) hac, sum_range_add]
      have z2 : ∑ s ∈ range (x.lastDim c), V' c idx [s] * childSum z V' idx cs
          (fun t => if inSecond x (c :: cs) (s :: t) then k (shiftT x (c :: cs) (s :: t)) else 0) = 0 := by
        apply sum_eq_zero
        intro s hs
        have hs := mem_range.1 hs
        have : ∀ t, (if inSecond x (c :: cs) (s :: t) then k (shiftT x (c :: cs) (s :: t)) else 0) = 0 := by
          intro t
          rw [if_neg]
          rw [inSecond_cons]
          rintro ⟨h1, _⟩
          have := h1 hac; omega
        simp only [this]
        rw [childSum_zero, mul_zero]
      rw [z2, zero_add]
      apply sum_congr rfl
      intro s hs
      have hs := mem_range.1 hs
      rw [hV c (by simp) hac s hs, ← ih' (fun t => k (s :: t))]
      congr 1
      apply childSum_congr'
      intro t _
      simp only [inSecond_cons, shiftT, if_pos hac, Nat.add_sub_cancel_left]
      by_cases hf : inSecond x cs t
      · rw [if_pos ⟨fun _ => by omega, hf⟩, if_pos hf]
      · rw [if_neg (fun h => hf h.2), if_neg hf]
    · rw [if_neg hac, if_neg hac, ht, ← ih' (fun t => k (_ :: t))]
      apply childSum_congr'
      intro t _
      simp only [inSecond_cons, shiftT, if_neg hac]
      by_cases hf : inSecond x cs t
      · rw [if_pos ⟨fun h => absurd h hac, hf⟩, if_pos hf]
      · rw [if_neg (fun h => hf h.2), if_neg hf]

/-- Two tensors that can be added: the same tree, the same active nodes, the same shape and root rank. -/
structure Compat (x y : TBT R) : Prop where
  tree : y.tree = x.tree
  active : ∀ i, IsNode x.tree i → y.active i = x.active i
  shape : y.shape = x.shape
  root : ∀ r, IsRoot x.tree r → rankShape y r = rankShape x r

theorem Compat.leafSize {x y : TBT R} (hc : Compat x y) {c : Nat} (h : c ∈ x.tree.dim2ind) : y.leafSize c = x.leafSize c := by
  rw [← shape_getD h, ← hc.shape, ← shape_getD (x := y) (c := c) (by rw [hc.tree]; exact h), hc.tree]

theorem mem_activeAxes (x : TBT R) (i k : Nat) : k ∈ activeAxes x i ↔
    k < (x.tree.children i).length ∧ x.active ((x.tree.children i).getD k 0) = true := by
  unfold activeAxes; rw [List.mem_filter, List.mem_range]

theorem nodup_activeAxes (x : TBT R) (i : Nat) : (activeAxes x i).Nodup := List.nodup_range.filter _

theorem length_shiftT (x : TBT R) (cs t : List Nat) (h : t.length = cs.length) : (shiftT x cs t).length = cs.length := by
  induction cs generalizing t with
  | nil => cases t <;> rfl
  | cons c cs ih =>
    cases t with
    | nil => simp at h
    | cons s t => simp only [shiftT, List.length_cons]; rw [ih t (by simpa using h)]

theorem getD_shiftT (x : TBT R) (cs t : List Nat) (h : t.length = cs.length) (k : Nat) (hk : k < cs.length) :
    (shiftT x cs t).getD k 0 = if x.active (cs.getD k 0) then t.getD k 0 - x.lastDim (cs.getD k 0) else t.getD k 0 := by
  induction cs generalizing t k with
  | nil => simp at hk
  | cons c cs ih =>
    cases t with
    | nil => simp at h
    | cons s t =>
      cases k with
      | zero => rfl
      | succ k => simpa [shiftT] using ih t (by simpa using h) k (by simpa using hk)

open Classical in
/-- The concatenation of the tensors of an internal node; `last` tells whether the rank axis is concatenated. -/
theorem cat_node [AddCommMonoid R] (x y : TBT R) (i : Nat) (a b : Arr R) (ea eb : List Nat) (last : Bool)
    (ha : a.shape = (x.tree.children i).map (childSize x) ++ ea) (hb : b.shape = (x.tree.children i).map (childSize y) ++ eb)
    (hoff : ∀ c ∈ x.tree.children i, ¬ x.active c → childSize y c = childSize x c)
    (hcase : (last = false ∧ eb = ea) ∨ (last = true ∧ ∃ p q, ea = [p] ∧ eb = [q])) :
    ∃ z, FullTensor.cat a b (some (activeAxes x i ++ if last then [(x.tree.children i).length] else [])) = .ok z ∧
      z.shape = (x.tree.children i).map (fun c => if x.active c then childSize x c + childSize y c else childSize x c) ++
        (if last then List.zipWith (· + ·) ea eb else ea) ∧
      ∀ t e, InBox z.shape (t ++ e) → t.length = (x.tree.children i).length → z.get (t ++ e) =
        (if inFirst x (x.tree.children i) t ∧ (last = true → InBox ea e) then a.get (t ++ e) else 0) +
        (if inSecond x (x.tree.children i) t ∧ (last = true → List.Forall₂ (· ≤ ·) ea e) then
          b.get (shiftT x (x.tree.children i) t ++ if last then List.zipWith (· - ·) e ea else e) else 0) := by
  set cs := x.tree.children i with hcs
  set m := cs.length with hm
  set E : List Nat := if last then [m] else [] with hE
  have hcl : ∀ (w : TBT R) k, k < m → (cs.map (childSize w)).getD k 0 = childSize w (cs.getD k 0) := by
    intro w k hk
    rw [List.getD_eq_getElem _ _ (by simpa using hk), List.getElem_map, List.getD_eq_getElem _ _ hk]
  have hga : ∀ k, k < m → a.shape.getD k 0 = childSize x (cs.getD k 0) := by
    intro k hk
    rw [ha, List.getD_append _ _ _ _ (by simpa using hk), hcl x k hk]
  have hgb : ∀ k, k < m → b.shape.getD k 0 = childSize y (cs.getD k 0) := by
    intro k hk
    rw [hb, List.getD_append _ _ _ _ (by simpa using hk), hcl y k hk]
  have hmem : ∀ k, k < m → cs.getD k 0 ∈ cs := fun k hk => by
    rw [List.getD_eq_getElem _ _ hk]; exact List.getElem_mem hk
  have hel : ea.length = eb.length := by
    rcases hcase with ⟨_, h⟩ | ⟨_, p, q, h1, h2⟩
    · rw [h]
    · rw [h1, h2]; rfl
  have hao : a.order = m + ea.length := by show a.shape.length = _; rw [ha]; simp [hm]
  have hbo : b.order = m + ea.length := by show b.shape.length = _; rw [hb]; simp [hm, hel]
  have hD : ∀ k, k ∈ activeAxes x i ++ E ↔ (k < m ∧ x.active (cs.getD k 0) = true) ∨ (last = true ∧ k = m) := by
    intro k
    rw [List.mem_append, mem_activeAxes, hE]
    cases last <;> simp
    · exact Iff.rfl
    · exact Iff.rfl
  have hEnd : (activeAxes x i ++ E).Nodup := by
    rw [List.nodup_append]
    refine ⟨nodup_activeAxes x i, by rw [hE]; cases last <;> simp, ?_⟩
    intro k hk k' hk' hkk
    rw [hE] at hk'
    have h1 : k < m := ((mem_activeAxes x i k).1 hk).1
    cases last
    · simp at hk'
    · simp only [if_true, List.mem_singleton] at hk'
      omega
  have hsub : ∀ k ∈ activeAxes x i ++ E, k < a.order := by
    intro k hk
    rcases (hD k).1 hk with h | ⟨h, rfl⟩
    · omega
    · rcases hcase with ⟨h', _⟩ | ⟨_, p, q, h1, h2⟩
      · rw [h] at h'; simp at h'
      · rw [hao, h1]; simp
  obtain ⟨z, z1, z2, z3⟩ := cat_sum a b (activeAxes x i ++ E) hEnd hsub (by rw [hao, hbo]) (by
    intro k hk hkn
    rw [hD] at hkn
    push Not at hkn
    by_cases hkm : k < m
    · rw [hga k hkm, hgb k hkm]
      exact (hoff _ (hmem k hkm) (hkn.1 hkm)).symm
    · rcases hcase with ⟨_, h⟩ | ⟨h', p, q, h1, h2⟩
      · rw [ha, hb, List.getD_append_right _ _ _ _ (by simp; omega), List.getD_append_right _ _ _ _ (by simp; omega), h]
        simp
      · have : k = m := by rw [hao, h1] at hk; simp at hk; omega
        exact absurd this (hkn.2 h'))
  have hzshape : z.shape = cs.map (fun c => if x.active c then childSize x c + childSize y c else childSize x c) ++
        (if last then List.zipWith (· + ·) ea eb else ea) := by
    rw [z2]
    apply List.ext_getElem
    · cases last <;> simp [hao, hel, hm]
    · intro k k1 k2
      have hk : k < a.order := by simpa using k1
      rw [List.getElem_map, List.getElem_range]
      simp only [hD]
      by_cases hkm : k < m
      · rw [List.getElem_append_left (by simpa using hkm), List.getElem_map]
        have e1 : cs[k] = cs.getD k 0 := by rw [List.getD_eq_getElem _ _ hkm]
        rw [e1, hga k hkm, hgb k hkm]
        have : ¬ (last = true ∧ k = m) := by rintro ⟨_, h⟩; omega
        simp [hkm, this]
      · rcases hcase with ⟨h', h⟩ | ⟨h', p, q, h1, h2⟩
        · subst h'
          rw [if_neg (by simp; omega)]
          simp only [Bool.false_eq_true, if_false]
          rw [List.getElem_append_right (by simp; omega), ha, List.getD_append_right _ _ _ _ (by simp; omega)]
          simp only [List.length_map]
          rw [List.getD_eq_getElem _ _ (by rw [hao] at hk; show k - m < _; omega)]
        · subst h'
          subst h1 h2
          have hkm' : k = m := by rw [hao] at hk; simp at hk; omega
          subst hkm'
          simp only [if_true]
          rw [if_pos (by simp), List.getElem_append_right (by simp [hm]), ha, hb,
            List.getD_append_right _ _ _ _ (by simp [hm]), List.getD_append_right _ _ _ _ (by simp [hm])]
          simp [hm]
  refine ⟨z, z1, hzshape, ?_⟩
  intro t e hte htl
  rw [z3 _ hte]
  have hte' := hte
  rw [hzshape] at hte'
  have hte2 := (inBox_append (by rw [List.length_map]; exact htl)).1 hte'
  have hgt : ∀ k, k < m → (t ++ e).getD k 0 = t.getD k 0 := fun k hk => List.getD_append _ _ _ _ (by omega)
  have hcsz : ∀ k, k < m → x.active (cs.getD k 0) = true → childSize x (cs.getD k 0) = x.lastDim (cs.getD k 0) := by
    intro k _ h; unfold childSize; rw [if_pos h]
  have c1 : (∀ k ∈ activeAxes x i ++ E, (t ++ e).getD k 0 < a.shape.getD k 0) ↔
      inFirst x cs t ∧ (last = true → InBox ea e) := by
    constructor
    · intro h
      refine ⟨fun k hk hka => ?_, fun hlast => ?_⟩
      · have := h k ((hD k).2 (.inl ⟨hk, hka⟩))
        rwa [hgt k hk, hga k hk, hcsz k hk hka] at this
      · rcases hcase with ⟨h', _⟩ | ⟨_, p, q, h1, h2⟩
        · rw [hlast] at h'; simp at h'
        · subst h1 h2 hlast
          obtain ⟨s, rfl, hs⟩ := inBox_single (n := p + q) hte2.2
          have := h m ((hD m).2 (.inr ⟨rfl, rfl⟩))
          rw [ha, List.getD_append_right _ _ _ _ (by omega), List.getD_append_right _ _ _ _ (by simp [hm])] at this
          simp [htl, hm] at this
          exact inBox_one this
    · rintro ⟨h1, h2⟩ k hk
      rcases (hD k).1 hk with ⟨hk, hka⟩ | ⟨hlast, rfl⟩
      · rw [hgt k hk, hga k hk, hcsz k hk hka]; exact h1 k hk hka
      · rcases hcase with ⟨h', _⟩ | ⟨_, p, q, h1', h2'⟩
        · rw [hlast] at h'; simp at h'
        · subst h1' h2' hlast
          obtain ⟨s, rfl, hs⟩ := inBox_single (n := p) (h2 rfl)
          rw [ha, List.getD_append_right _ _ _ _ (by omega), List.getD_append_right _ _ _ _ (by simp [hm])]
          simp [htl, hm]
          exact hs
  have c2 : (∀ k ∈ activeAxes x i ++ E, a.shape.getD k 0 ≤ (t ++ e).getD k 0) ↔
      inSecond x cs t ∧ (last = true → List.Forall₂ (· ≤ ·) ea e) := by
    constructor
    · intro h
      refine ⟨fun k hk hka => ?_, fun hlast => ?_⟩
      · have := h k ((hD k).2 (.inl ⟨hk, hka⟩))
        rwa [hgt k hk, hga k hk, hcsz k hk hka] at this
      · rcases hcase with ⟨h', _⟩ | ⟨_, p, q, h1, h2⟩
        · rw [hlast] at h'; simp at h'
        · subst h1 h2 hlast
          obtain ⟨s, rfl, hs⟩ := inBox_single (n := p + q) hte2.2
          have := h m ((hD m).2 (.inr ⟨rfl, rfl⟩))
          rw [ha, List.getD_append_right _ _ _ _ (by simp [hm]), List.getD_append_right _ _ _ _ (by omega)] at this
          simp [htl, hm] at this
          exact .cons this .nil
    · rintro ⟨h1, h2⟩ k hk
      rcases (hD k).1 hk with ⟨hk, hka⟩ | ⟨hlast, rfl⟩
      · rw [hgt k hk, hga k hk, hcsz k hk hka]; exact h1 k hk hka
      · rcases hcase with ⟨h', _⟩ | ⟨_, p, q, h1', h2'⟩
        · rw [hlast] at h'; simp at h'
        · subst h1' h2' hlast
          have h2 := h2 rfl
          match e, h2 with
          | [s], h2 =>
            rw [ha, List.getD_append_right _ _ _ _ (by simp [hm]), List.getD_append_right _ _ _ _ (by omega)]
            simp [htl, hm]
            simpa using h2
  have hel' : e.length = ea.length := by
    rw [hte2.2.length_eq]; cases last <;> simp [hel]
  have c3 : FullTensor.shiftBack (activeAxes x i ++ E) a.shape (t ++ e) =
      shiftT x cs t ++ if last then List.zipWith (· - ·) e ea else e := by
    apply List.ext_getElem
    · unfold FullTensor.shiftBack
      have q1 := length_shiftT x cs t htl
      cases last
      · simp [q1, htl]
        omega
      · simp [q1, htl, hel']
        omega
    · intro k k1 k2
      have hk : k < (t ++ e).length := by unfold FullTensor.shiftBack at k1; simpa using k1
      have g := FullTensor.getD_shiftBack (activeAxes x i ++ E) a.shape (t ++ e) k hk
      rw [List.getD_eq_getElem _ _ k1] at g
      rw [g]
      simp only [hD]
      by_cases hkm : k < m
      · rw [List.getElem_append_left (by rw [length_shiftT x cs t htl]; exact hkm)]
        have g2 := getD_shiftT x cs t htl k hkm
        rw [List.getD_eq_getElem _ _ (by rw [length_shiftT x cs t htl]; exact hkm)] at g2
        rw [g2, hgt k hkm, hga k hkm]
        have hno : ¬ (last = true ∧ k = m) := by rintro ⟨_, h⟩; omega
        by_cases hka : x.active (cs.getD k 0) = true
        · rw [if_pos (.inl ⟨hkm, hka⟩), if_pos hka, hcsz k hkm hka]
        · rw [if_neg (by rintro (h | h); exact hka h.2; exact hno h), if_neg hka]
      · have hkge : (shiftT x cs t).length ≤ k := by rw [length_shiftT x cs t htl]; omega
        rw [List.getElem_append_right hkge]
        rw [List.getD_append_right _ _ _ _ (by omega)]
        simp only [length_shiftT x cs t htl]
        rcases hcase with ⟨h', h⟩ | ⟨h', p, q, h1, h2⟩
        · subst h'
          rw [if_neg (by simp; omega)]
          simp only [Bool.false_eq_true, if_false]
          rw [List.getD_eq_getElem _ _ (by simp at hk; omega)]
          congr 1
          omega
        · subst h' h1 h2
          have hkm' : k = m := by
            rw [List.length_append, htl, hel'] at hk
            simp at hk; omega
          subst hkm'
          rw [if_pos (by simp), ha, List.getD_append_right _ _ _ _ (by simp [hm])]
          match e, hel' with
          | [s], _ => simp [htl, hm]
  rw [c3]
  simp only [c1, c2]

theorem cat_none [AddZeroClass R] (a b : Arr R) : FullTensor.cat a b none = FullTensor.cat a b (some (List.range a.order)) := rfl

theorem activeAxes_all (x : TBT R) (i : Nat) (h : ¬ (activeAxes x i).length < (x.tree.children i).length) :
    activeAxes x i = List.range (x.tree.children i).length := by
  unfold activeAxes at h ⊢
  refine List.filter_eq_self.2 (fun a ha => ?_)
  by_contra hc
  apply h
  have h1 := List.length_filter_lt_length_iff_exists (p := fun k => x.active ((x.tree.children i).getD k 0)).2 ⟨a, ha, hc⟩
  simpa using h1

open Classical in
/-- `z` is the tensor of the internal node `i` in the sum. -/
def AddSpec [AddCommMonoid R] (x y : TBT R) (i : Nat) (z : Arr R) : Prop :=
  z.shape = (x.tree.children i).map (fun c => if x.active c then x.lastDim c + y.lastDim c else x.leafSize c) ++
      (if IsRoot x.tree i then rankShape x i else [x.lastDim i + y.lastDim i]) ∧
  ∀ t e, InBox z.shape (t ++ e) → t.length = (x.tree.children i).length → z.get (t ++ e) =
      (if inFirst x (x.tree.children i) t ∧ (¬ IsRoot x.tree i → e.getD 0 0 < x.lastDim i) then (x.tensors i).get (t ++ e) else 0) +
      (if inSecond x (x.tree.children i) t ∧ (¬ IsRoot x.tree i → x.lastDim i ≤ e.getD 0 0) then
        (y.tensors i).get (shiftT x (x.tree.children i) t ++ if IsRoot x.tree i then e else [e.getD 0 0 - x.lastDim i]) else 0)

open Classical in
/-- The tensor of an internal node in the sum. -/
theorem addNode_internal [AddCommMonoid R] {x y : TBT R} (hx : WF x) (hy : WF y) (hc : Compat x y) {r : Nat}
    (hr : IsRoot x.tree r) {i : Nat} (hi : IsNode x.tree i) (hl : i ∉ x.tree.dim2ind) :
    ∃ z, addNode x r (x.tensors i) (y.tensors i) i = .ok z ∧ AddSpec x y i z := by
  have hlf : ¬ x.tree.isLeaf i = true := fun h => hl ((isLeaf_mem _ _).1 h)
  have hax := (hx.node i hi hl).2.1
  have hay := (hy.node i (hc.tree ▸ hi) (hc.tree ▸ hl)).2.1
  rw [hc.tree] at hay
  have hoff : ∀ c ∈ x.tree.children i, ¬ x.active c → childSize y c = childSize x c := by
    intro c hcc hca
    have hce := (mem_children i c hi).1 hcc
    unfold childSize
    rw [hc.active c hce.2.1, if_neg hca, if_neg hca]
    exact hc.leafSize (hx.inactive_leaf hce.2.1 hca)
  have hmap : (x.tree.children i).map (fun c => if x.active c then childSize x c + childSize y c else childSize x c) =
      (x.tree.children i).map (fun c => if x.active c then x.lastDim c + y.lastDim c else x.leafSize c) := by
    refine List.map_congr_left (fun c hcc => ?_)
    have hce := (mem_children i c hi).1 hcc
    unfold childSize
    rw [hc.active c hce.2.1]
    by_cases ha : x.active c = true
    · simp only [if_pos ha]
    · simp only [if_neg ha]
  by_cases hir : IsRoot x.tree i
  · obtain ⟨z, z1, z2, z3⟩ := cat_node x y i (x.tensors i) (y.tensors i) (rankShape x i) (rankShape y i) false hax hay hoff
      (.inl ⟨rfl, hc.root i hir⟩)
    refine ⟨z, ?_, ?_, ?_⟩
    · unfold addNode
      rw [if_neg hlf, if_pos (root_unique hx.valid hir hr)]
      simpa using z1
    · rw [z2, hmap, if_pos hir]; simp
    · intro t e hte htl
      rw [z3 t e hte htl]
      simp [hir]
  · have hrx : rankShape x i = [x.lastDim i] := by rw [← rs_node hl, hx.rs_eq hi hir]
    have hry : rankShape y i = [y.lastDim i] := by
      rw [← rs_node (hc.tree ▸ hl), hy.rs_eq (hc.tree ▸ hi) (hc.tree ▸ hir)]
    rw [hrx] at hax
    rw [hry] at hay
    obtain ⟨z, z1, z2, z3⟩ := cat_node x y i (x.tensors i) (y.tensors i) [x.lastDim i] [y.lastDim i] true hax hay hoff
      (.inr ⟨rfl, _, _, rfl, rfl⟩)
    have hord : (x.tensors i).order = (x.tree.children i).length + 1 := by
      show (x.tensors i).shape.length = _; rw [hax]; simp
    have hz : addNode x r (x.tensors i) (y.tensors i) i = .ok z := by
      unfold addNode
      rw [if_neg hlf, if_neg (fun h : i = r => hir (h ▸ hr))]
      simp only [if_true] at z1
      split
      · rw [hord]; exact z1
      · rename_i h
        rw [cat_none, hord, List.range_succ, ← activeAxes_all x i h]; exact z1
    refine ⟨z, hz, ?_, ?_⟩
    · rw [z2, hmap, if_neg hir]; simp
    · intro t e hte htl
      rw [z3 t e hte htl]
      rw [z2] at hte
      have he := ((inBox_append (by simp [htl])).1 hte).2
      obtain ⟨s, rfl, hs⟩ := inBox_single (n := x.lastDim i + y.lastDim i) (by simpa using he)
      simp [hir]

/-- The tensor of a leaf in the sum. -/
theorem addNode_leaf [AddCommMonoid R] {x y : TBT R} (hx : WF x) (hy : WF y) (hc : Compat x y) (r : Nat)
    {c : Nat} (hl : c ∈ x.tree.dim2ind) (ha : x.active c = true) :
    ∃ z, addNode x r (x.tensors c) (y.tensors c) c = .ok z ∧
      z.shape = [x.leafSize c, x.lastDim c + y.lastDim c] ∧
      ∀ a s, a < x.leafSize c → s < x.lastDim c + y.lastDim c → z.get [a, s] =
        if s < x.lastDim c then (x.tensors c).get [a, s] else (y.tensors c).get [a, s - x.lastDim c] := by
  obtain ⟨n, q, hsx⟩ := hx.leaf c hl ha
  have hlc := hc.leafSize hl
  have hn := ((hx.valid.leaves c).1 hl).1
  have hay : y.active c = true := by rw [hc.active c hn]; exact ha
  obtain ⟨n', q', hsy⟩ := hy.leaf c (hc.tree ▸ hl) hay
  have e1 : x.leafSize c = n := by unfold TBT.leafSize; rw [if_pos ha, hsx]; rfl
  have e2 : y.leafSize c = n' := by unfold TBT.leafSize; rw [if_pos hay, hsy]; rfl
  have e3 : x.lastDim c = q := lastDim_of_shape (s := [n]) (by simpa using hsx)
  have e4 : y.lastDim c = q' := lastDim_of_shape (s := [n']) (by simpa using hsy)
  have hnn : n' = n := by rw [← e1, ← e2, hlc]
  subst hnn
  rw [e1, e3, e4]
  have ho : (x.tensors c).order = 2 := by show (x.tensors c).shape.length = 2; rw [hsx]; rfl
  have ho' : (y.tensors c).order = 2 := by show (y.tensors c).shape.length = 2; rw [hsy]; rfl
  obtain ⟨z, z1, z2, z3⟩ := cat_sum (x.tensors c) (y.tensors c) [1] (by simp) (by simp [ho]) (by rw [ho, ho']) (by
    intro k hk hk1
    rw [ho] at hk
    have : k = 0 := by simp at hk1; omega
    subst this
    rw [hsx, hsy]; rfl)
  refine ⟨z, ?_, ?_, ?_⟩
  · unfold addNode
    rw [if_pos ((isLeaf_mem _ _).2 hl), if_pos ha]; exact z1
  · rw [z2, ho, hsx, hsy]; rfl
  · intro a s has hs
    have hb : InBox z.shape [a, s] := by
      rw [z2, ho, hsx, hsy]
      show InBox [n', q + q'] [a, s]
      simp [has, hs]
    rw [z3 _ hb, hsx]
    have hsb : FullTensor.shiftBack [1] [n', q] [a, s] = [a, s - q] := rfl
    rw [hsb]
    by_cases h : s < q
    · rw [if_pos (by simpa using h), if_neg (by simpa using h), if_pos h, add_zero]
    · rw [if_neg (by simpa using h), if_pos (by simpa using Nat.not_lt.1 h), if_neg h, zero_add]

theorem eq_self {T : DTree} (h : Valid T) : T.eq T = .ok true :=
  eq_of_sameTree h h ⟨rfl, fun _ => rfl⟩

open Classical in
/-- The values of the sum: those of `x` for the first rank indices, those of `y` for the others, their sum at the
root. -/
noncomputable def addValue [Add R] (x : TBT R) (V W : Nat → List Nat → List Nat → R) (i : Nat) (idx e : List Nat) : R :=
  if IsRoot x.tree i then V i idx e + W i idx e
  else if e.getD 0 0 < x.lastDim i then V i idx e else W i idx [e.getD 0 0 - x.lastDim i]

open Classical in
/-- `x + y` for tensors with the same tree, the same active nodes, the same shape and the same root rank: the full
tensor of the sum is the sum of the full tensors, and the ranks of the nodes other than the root add up. -/
theorem add_same [CommSemiring R] (x y : TBT R) (hx : WF x) (hy : WF y) (hc : Compat x y) :
    ∃ z a b w, add x y = .ok z ∧ WF z ∧ full x = .ok a ∧ full y = .ok b ∧ full z = .ok w ∧
      w ≃ₐ FullTensor.add a b ∧ a.shape = b.shape ∧ z.tree = x.tree ∧
      ∀ i, IsNode x.tree i → ¬ IsRoot x.tree i → x.active i → z.active i = true ∧ z.lastDim i = x.lastDim i + y.lastDim i := by
  obtain ⟨r, hr, hroot⟩ := root_ok hx.valid
  have hrl := hx.root_internal hroot
  have hV := hx.valid
  have hex : ∀ i, ∃ z, IsNode x.tree i → addNode x r (x.tensors i) (y.tensors i) i = .ok z := by
    intro i
    by_cases hi : IsNode x.tree i
    · by_cases hl : i ∈ x.tree.dim2ind
      · by_cases ha : x.active i = true
        · obtain ⟨z, hz, _⟩ := addNode_leaf hx hy hc r hl ha
          exact ⟨z, fun _ => hz⟩
        · refine ⟨x.tensors i, fun _ => ?_⟩
          unfold addNode
          rw [if_pos ((isLeaf_mem _ _).2 hl), if_neg ha]
      · obtain ⟨z, hz, _⟩ := addNode_internal hx hy hc hroot hi hl
        exact ⟨z, fun _ => hz⟩
    · exact ⟨x.tensors i, fun h => absurd h hi⟩
  choose g hg using hex
  set ts : Nat → Arr R := fun i => if i ∈ x.tree.nodes then g i else x.tensors i with hts
  have hfor := forNodes_spec (T := x.tree) (ts := x.tensors) (f := fun nod a => addNode x r a (y.tensors nod) nod) (g := g)
    (fun i hi => hg i hi)
  set z : TBT R := ⟨x.tree, ts⟩ with hz
  have htsn : ∀ i, IsNode x.tree i → z.tensors i = g i := by
    intro i hi
    show ts i = g i
    simp only [hts]; rw [if_pos ((mem_nodes i).2 hi)]
  -- the tensors of the sum
  have leafS : ∀ c ∈ x.tree.dim2ind, x.active c = true → (z.tensors c).shape = [x.leafSize c, x.lastDim c + y.lastDim c] ∧
      ∀ a s, a < x.leafSize c → s < x.lastDim c + y.lastDim c → (z.tensors c).get [a, s] =
        if s < x.lastDim c then (x.tensors c).get [a, s] else (y.tensors c).get [a, s - x.lastDim c] := by
    intro c hcl ha
    have hcn := ((hV.leaves c).1 hcl).1
    obtain ⟨w, w1, w2, w3⟩ := addNode_leaf hx hy hc r hcl ha
    rw [hg c hcn] at w1; cases w1
    rw [htsn c hcn]; exact ⟨w2, w3⟩
  have leafO : ∀ c ∈ x.tree.dim2ind, ¬ x.active c = true → z.tensors c = x.tensors c := by
    intro c hcl ha
    have hcn := ((hV.leaves c).1 hcl).1
    have h1 := hg c hcn
    unfold addNode at h1
    rw [if_pos ((isLeaf_mem _ _).2 hcl), if_neg ha] at h1
    injection h1 with h1
    rw [htsn c hcn, h1]
  have nodeS : ∀ i, IsNode x.tree i → i ∉ x.tree.dim2ind → AddSpec x y i (z.tensors i) := by
    intro i hi hl
    obtain ⟨w, w1, w2⟩ := addNode_internal hx hy hc hroot hi hl
    rw [hg i hi] at w1
    injection w1 with w1
    rw [htsn i hi, w1]
    exact w2
  have sx := hx.shaped hroot
  have hsz : Shaped z x.tree x.active (fun i => x.lastDim i + y.lastDim i) x.leafSize (rankShape x r) := by
    refine ⟨rfl, ?_, sx.nu, sx.rootPos, sx.rootLen, fun c hcl ha => (leafS c hcl ha).1, ?_, sx.internal, ?_⟩
    · intro i hi hir ha
      have := sx.rho i hi hir ha
      show 0 < _ + _; omega
    · intro c hcl ha
      rw [leafO c hcl ha]; exact sx.off c hcl ha
    · intro i hi hl
      rw [(nodeS i hi hl).1]
      congr 1
      by_cases hir : IsRoot x.tree i
      · rw [if_pos hir, if_pos hir, root_unique hV hir hroot]
      · rw [if_neg hir, if_neg hir]
  have hwz := hsz.wf hV hx.order
  have hshz : z.shape = x.shape := hsz.shapeEq hV hx.order
  obtain ⟨V, hVx⟩ := exists_value x hV
  obtain ⟨W, hWy⟩ := exists_value y hy.valid
  have hon : IsValueOn z (addValue x V W) := by
    refine ⟨?_, ?_⟩
    · intro c hcl ha idx s hidx hs
      have hcl : c ∈ x.tree.dim2ind := hcl
      have hcn := ((hV.leaves c).1 hcl).1
      have hcr : ¬ IsRoot x.tree c := fun h => hx.root_internal h hcl
      rw [hsz.active hV hx.order hcn] at ha
      rw [hsz.lastDim hcn hcr ha] at hs
      rw [hshz] at hidx
      show _ = (z.tensors c).get [idx.getD (dimOf x.tree c) 0, s]
      rw [(leafS c hcl ha).2 _ _ (inBox_shape_getD hidx hcl) hs]
      unfold addValue
      rw [if_neg hcr]
      simp only [List.getD_cons_zero]
      split
      · rw [hVx.leaf c hcl ha]
      · rw [hWy.leaf c (by rw [hc.tree]; exact hcl) (by rw [hc.active c hcn]; exact ha), hc.tree]
    · intro i hi hl idx e hidx he
      have hi : IsNode x.tree i := hi
      have hl : i ∉ x.tree.dim2ind := hl
      rw [hshz] at hidx
      have hcn : ∀ c ∈ x.tree.children i, IsNode x.tree c ∧ ¬ IsRoot x.tree c := fun c hcc => by
        have hce := (mem_children i c hi).1 hcc
        exact ⟨hce.2.1, fun h => h.2 i hce⟩
      show addValue x V W i idx e = childSum z (addValue x V W) idx (x.tree.children i) (fun t => (z.tensors i).get (t ++ e))
      have hsplit : childSum z (addValue x V W) idx (x.tree.children i) (fun t => (z.tensors i).get (t ++ e)) =
          childSum z (addValue x V W) idx (x.tree.children i) (fun t =>
            (if inFirst x (x.tree.children i) t then
              (if (¬ IsRoot x.tree i → e.getD 0 0 < x.lastDim i) then (x.tensors i).get (t ++ e) else 0) else 0) +
            (if inSecond x (x.tree.children i) t then
              (if (¬ IsRoot x.tree i → x.lastDim i ≤ e.getD 0 0) then
          (y.tensors i).get (shiftT x (x.tree.children i) t ++ if IsRoot x.tree i then e else [e.getD 0 0 - x.lastDim i]) else 0) else 0)) := by
        apply childSum_congr
        · intros; rfl
        · intro t ht
          have hzi := (hwz.node i hi hl).2.1
          have hb : InBox (z.tensors i).shape (t ++ e) := by
            rw [hzi]
            refine (inBox_append ?_).2 ⟨ht, he⟩
            exact ht.length_eq
          rw [(nodeS i hi hl).2 t e hb (by simpa using ht.length_eq)]
          congr 1
          · by_cases h1 : inFirst x (x.tree.children i) t <;> simp [h1]
          · by_cases h1 : inSecond x (x.tree.children i) t <;> simp [h1]
        · intro c hcc hca
          have hcl := hwz.inactive_leaf (hcn c hcc).1 hca
          unfold childSize; rw [if_neg hca]
          exact inBox_shape_getD (by rw [hshz]; exact hidx) hcl
      rw [hsplit, childSum_add]
      have hact : ∀ c ∈ x.tree.children i, z.active c = x.active c := fun c hcc => hsz.active hV hx.order (hcn c hcc).1
      have hld : ∀ c ∈ x.tree.children i, x.active c = true → z.lastDim c = x.lastDim c + y.lastDim c :=
        fun c hcc ha => hsz.lastDim (hcn c hcc).1 (hcn c hcc).2 ha
      rw [childSum_first (x := x) (z := z) rfl (V := V) (V' := addValue x V W) (x.tree.children i) y.lastDim hact hld (by
          intro c hcc ha s hs
          unfold addValue
          rw [if_neg (hcn c hcc).2]
          simp only [List.getD_cons_zero]
          rw [if_pos hs])
        (fun t => if (¬ IsRoot x.tree i → e.getD 0 0 < x.lastDim i) then (x.tensors i).get (t ++ e) else 0),
        childSum_second (x := x) (y := y) (z := z) hc.tree.symm (W := W) (V' := addValue x V W) (x.tree.children i)
        (fun c hcc => hc.active c (hcn c hcc).1) hact hld (by
          intro c hcc ha s hs
          unfold addValue
          rw [if_neg (hcn c hcc).2]
          simp only [List.getD_cons_zero]
          rw [if_neg (by omega), Nat.add_sub_cancel_left])
        (fun t => if (¬ IsRoot x.tree i → x.lastDim i ≤ e.getD 0 0) then
          (y.tensors i).get (t ++ if IsRoot x.tree i then e else [e.getD 0 0 - x.lastDim i]) else 0)]
      have nx := fun e => hVx.node i hi hl idx e
      have ny := fun e => hWy.node i (by rw [hc.tree]; exact hi) (by rw [hc.tree]; exact hl) idx e
      simp only [hc.tree] at ny
      unfold addValue
      by_cases hir : IsRoot x.tree i
      · simp only [hir, not_true, false_imp_iff, if_true]
        rw [nx, ny]
      · simp only [hir, not_false_eq_true, true_imp_iff, if_false]
        rw [hsz.rankShape_node hi hl hir] at he
        obtain ⟨s, rfl, hs⟩ := inBox_single he
        simp only [List.getD_cons_zero]
        by_cases h1 : s < x.lastDim i
        · rw [if_pos h1]
          simp only [if_pos h1, if_neg (Nat.not_le.2 h1)]
          rw [childSum_zero, add_zero, nx]
        · rw [if_neg h1]
          simp only [if_neg h1, if_pos (Nat.not_lt.1 h1)]
          rw [childSum_zero, zero_add, ny]
  obtain ⟨a, a1, a2, a3⟩ := full_on x hx hVx.on hr
  obtain ⟨b, b1, b2, b3⟩ := full_on y hy hWy.on (r := r) (by rw [hc.tree]; exact hr)
  obtain ⟨w, w1, w2, w3⟩ := full_on z hwz hon hr
  have hrz : rankShape z r = rankShape x r := hsz.rankShape_root hroot hrl
  have hadd : add x y = .ok z := by
    unfold add
    have hcond : x.tree.n = y.tree.n ∧ x.tree.nodes.all (fun i => x.active i == y.active i) = true := by
      refine ⟨by rw [hc.tree], ?_⟩
      rw [List.all_eq_true]
      intro i hi
      rw [hc.active i ((mem_nodes i).1 hi)]; simp
    simp only [bind, Except.bind]
    rw [if_pos hcond]
    simp only [hc.tree, eq_self hV, if_true, hr, hfor]
    exact mk_wf hwz
  refine ⟨z, a, b, w, hadd, hwz, a1, b1, w1, ⟨?_, ?_⟩, ?_, rfl, ?_⟩
  · show w.shape = a.shape
    rw [w2, a2, hshz, hrz]
  · intro idx hidx
    rw [w2] at hidx
    obtain ⟨p, e, rfl, hp, he⟩ := inBox_append_split hidx
    rw [w3 p e hp he]
    rw [hshz] at hp
    rw [hrz] at he
    show _ = a.get (p ++ e) + b.get (p ++ e)
    rw [a3 p e hp he, b3 p e (by rw [hc.shape]; exact hp) (by rw [hc.root r hroot]; exact he)]
    unfold addValue
    rw [if_pos hroot]
  · rw [a2, b2, hc.shape, hc.root r hroot]
  · intro i hi hir ha
    exact ⟨by rw [hsz.active hV hx.order hi]; exact ha, hsz.lastDim hi hir ha⟩

end Verif.TreeBased
