import Verif.Lemmas.TreeConvert
import Verif.Props.TreeInactivate
import Verif.Props.TreeOrth
import Verif.Props.DimensionTreeCtor
import Verif.Props.Canonical

/-!
# Properties of the conversions to tree-based tensors (C132 - C134)
-/

namespace Verif.TreeBased

open Verif.Arr Verif.DimTree Verif.Diagonal Verif.Canonical Finset

variable {R : Type}

/-! ### C132: dense tensors -/

theorem trivial_children (d : Nat) (hd : 1 ≤ d) : (DTree.trivial d).children 1 = (DTree.trivial d).dim2ind := by
  refine children_eq_of_sorted ⟨by omega, by simp [DTree.trivial]⟩ ?_ (fun j => ?_)
  · simp only [DTree.trivial]
    rw [List.pairwise_map]
    exact List.pairwise_lt_range.imp (fun h => by omega)
  · rw [(trivial_spec d hd).2.1]
    simp

/-- C132. `tree_based_tensor()` of a dense tensor without empty dimension is a well-formed tree-based tensor, with the trivial tree, and the same
entries. -/
theorem ofFull_full [CommSemiring R] (x : Arr R) (ho : 2 ≤ x.order) (hp : ∀ n ∈ x.shape, 1 ≤ n) :
    ∃ y f, ofFull x = .ok y ∧ WF y ∧ y.tree = DTree.trivial x.order ∧ full y = .ok f ∧ f ≃ₐ x := by
  classical
  generalize hd : x.order = d at *
  have hlen : x.shape.length = d := hd
  let z : TBT R := ⟨DTree.trivial d, fun nod => if nod = 1 then x else eyeArr (x.shape.getD (nod - 2) 0)⟩
  have hV := trivial_valid d (by omega)
  have hdim : (DTree.trivial d).dim2ind = (List.range d).map (· + 2) := rfl
  have hl2 : 2 ≤ (DTree.trivial d).dim2ind.length := by simp [hdim]; omega
  have hleaf : ∀ c ∈ (DTree.trivial d).dim2ind, ∃ k, k < d ∧ c = k + 2 ∧ dimOf (DTree.trivial d) c = k := by
    intro c hc
    rw [hdim] at hc
    obtain ⟨k, hk, rfl⟩ := List.mem_map.1 hc
    have hk := List.mem_range.1 hk
    refine ⟨k, hk, rfl, ?_⟩
    have h2 : k < ((List.range d).map (· + 2)).length := by simpa using hk
    have := hV.nodup.idxOf_getElem k (by rw [hdim]; exact h2)
    rw [show (DTree.trivial d).dim2ind[k]'(by rw [hdim]; exact h2) = k + 2 by simp [hdim]] at this
    exact this
  have hint : ∀ i, IsNode (DTree.trivial d) i → i ∉ (DTree.trivial d).dim2ind → i = 1 := by
    intro i hi hl
    by_contra hne
    refine hl ?_
    rw [hdim, List.mem_map]
    have h1 := hi.1
    have h2 : i ≤ d + 1 := hi.2
    exact ⟨i - 2, List.mem_range.2 (by omega), by omega⟩
  have hroot : IsRoot (DTree.trivial d) 1 := by
    refine ⟨⟨by omega, by simp [DTree.trivial]⟩, fun p hp => ?_⟩
    have := ((trivial_spec d (by omega)).2.1 p 1).1 hp
    obtain ⟨k, -, h, -⟩ := hleaf 1 this.2
    omega
  have hpos : ∀ k, k < d → 1 ≤ x.shape.getD k 0 := by
    intro k hk
    rw [List.getD_eq_getElem _ _ (by omega)]
    exact hp _ (List.getElem_mem _)
  have hS : Shaped z (DTree.trivial d) (fun _ => true) (fun c => x.shape.getD (c - 2) 0) (fun c => x.shape.getD (c - 2) 0) [] := by
    refine ⟨rfl, fun i hi hr _ => ?_, fun c hc => ?_, by simp, by simp, fun c hc _ => ?_, fun _ _ h => absurd rfl h, fun _ _ _ => rfl, fun i hi hl => ?_⟩
    · have hil : i ∈ (DTree.trivial d).dim2ind := by by_contra hn; exact hr (hint i hi hn ▸ hroot)
      obtain ⟨k, hk, rfl, -⟩ := hleaf i hil
      exact hpos k hk
    · obtain ⟨k, hk, rfl, -⟩ := hleaf c hc
      exact hpos k hk
    · obtain ⟨k, hk, rfl, -⟩ := hleaf c hc
      show (if k + 2 = 1 then x else _).shape = _
      rw [if_neg (by omega)]; rfl
    · obtain rfl := hint i hi hl
      rw [if_pos hroot, List.append_nil, trivial_children d (by omega), hdim, List.map_map]
      show x.shape = _
      apply List.ext_getElem (by simp [hlen])
      intro k k1 k2
      simp [List.getElem?_eq_getElem k1]
  have hw := hS.wf hV hl2
  have hzt : z.tree = DTree.trivial d := rfl
  have hsh : z.shape = x.shape := by
    rw [hS.shapeEq hV hl2, hdim, List.map_map]
    apply List.ext_getElem (by simp [hlen])
    intro k k1 k2
    simp [List.getElem?_eq_getElem k2]
  obtain ⟨f, r, f1, f2, f3, f4⟩ := full_spec z hw
  obtain ⟨V, hz⟩ := exists_value z hw.valid
  obtain ⟨r', hr', hrr⟩ := root_ok hV
  rw [hzt, hr'] at f2
  obtain rfl : r' = r := by cases f2; rfl
  obtain rfl := root_unique hV hrr hroot
  have hnl : 1 ∉ (DTree.trivial d).dim2ind := Shaped.root_internal' hV hl2 hroot
  have hrs : rankShape z 1 = [] := hS.rankShape_root hroot hnl
  rw [hrs, List.append_nil, hsh] at f3
  refine ⟨z, f, ?_, hw, rfl, f1, f3, fun idx hi => ?_⟩
  · have : ofFull x = mk (DTree.trivial d) (fun nod => if nod = 1 then x else eyeArr (x.shape.getD (nod - 2) 0)) := by unfold ofFull; rw [hd]
    rw [this]
    exact mk_wf hw
  rw [f3] at hi
  have e := f4 V hz idx [] (by rw [hsh]; exact hi) (by rw [hrs]; exact .nil)
  rw [List.append_nil] at e
  have hch : z.tree.children 1 = (DTree.trivial d).dim2ind := trivial_children d (by omega)
  have hcs : (z.tree.children 1).map (childSize z) = x.shape := by
    rw [hch, ← hsh, hS.shapeEq hV hl2]
    refine List.map_congr_left (fun c hc => ?_)
    rw [hS.childSize hV hl2 ((hV.leaves c).1 hc).1 (fun hr => Shaped.root_internal' hV hl2 hr hc), if_pos rfl]
  rw [e, hz.node 1 hroot.1 hnl, childSum_box _ _ _ _ (fun c hc ha => by
    rw [hch] at hc
    exact absurd (hS.active hV hl2 ((hV.leaves c).1 hc).1) ha), hcs]
  have hdel : ∀ t, InBox x.shape t → childProd z V (z.tree.children 1) idx t * (z.tensors 1).get (t ++ []) = x.get t * (if idx = t then 1 else 0) := by
    intro t ht
    rw [mul_comm, List.append_nil]
    congr 1
    have hil : idx.length = d := by rw [hi.length_eq, hlen]
    have htl : t.length = d := by rw [ht.length_eq, hlen]
    have key := delta_prod (R := R) (G := fun _ a b => if a = b then 1 else 0) (size := fun c => x.shape.getD (c - 2) 0) (DTree.trivial d).dim2ind idx t
      (fun _ _ _ _ _ _ => rfl) (by rw [← hS.shapeEq hV hl2, hsh]; exact hi) (by rw [← hS.shapeEq hV hl2, hsh]; exact ht)
    rw [← key, hch]
    unfold childProd
    congr 1
    apply List.ext_getElem
    · simp [hdim, hil, htl]
    · intro k k1 k2
      have hk : k < d := by
        simp [hdim, htl] at k1; exact k1
      have hc : (DTree.trivial d).dim2ind[k]'(by simp [hdim, hk]) = k + 2 := by simp [hdim]
      have hmem : k + 2 ∈ (DTree.trivial d).dim2ind := by rw [← hc]; exact List.getElem_mem _
      simp only [List.getElem_zipWith, List.getElem_zip, hc]
      unfold childVal
      have ha := hS.active hV hl2 ((hV.leaves (k + 2)).1 hmem).1
      rw [if_pos ha, hz.leaf (k + 2) hmem ha]
      obtain ⟨k', -, hk', hdo⟩ := hleaf (k + 2) hmem
      obtain rfl : k = k' := by omega
      have e1 : idx.getD (dimOf z.tree (k + 2)) 0 = idx[k]'(by omega) := by
        rw [hzt, hdo, List.getD_eq_getElem _ _ (by omega)]
      have e2 : z.tensors (k + 2) = eyeArr (x.shape.getD k 0) := by
        show (if k + 2 = 1 then x else eyeArr (x.shape.getD (k + 2 - 2) 0)) = _
        rw [if_neg (by omega)]; rfl
      rw [e1, e2]
      rfl
  rw [sumBox_congr hdel, sumBox_pick hi]

example : ∃ y f, ofFull (⟨[2, 3, 2], fun l => (l.sum : Int)⟩ : Arr Int) = .ok y ∧ WF y ∧ y.tree = DTree.trivial 3 ∧ full y = .ok f ∧
    f ≃ₐ ⟨[2, 3, 2], fun l => (l.sum : Int)⟩ := ofFull_full _ (by decide) (by decide)

/-! ### C133: diagonal tensors -/

/-- C133. `tree_based_tensor(tree, is_active_node)` of a diagonal tensor: for every tree of its order in which the internal nodes are active, the
entries of the result are those of the diagonal tensor, and the active leaves are the given ones. -/
theorem ofDiagonal_full [CommSemiring R] (x : Dg R) (T : DTree) (act : Nat → Bool) (hV : Valid T) (ho : 2 ≤ x.order) (hT : T.dim2ind.length = x.order)
    (hx : 1 ≤ x.data.length) (hact : ∀ i, IsNode T i → ¬ IsRoot T i → i ∉ T.dim2ind → act i = true) :
    ∃ y f, ofDiagonal x (some T) (some act) = .ok y ∧ WF y ∧ y.tree = T ∧ (∀ c ∈ T.dim2ind, y.active c = act c) ∧ full y = .ok f ∧
      f ≃ₐ Diagonal.full x := by
  classical
  have h2 : 2 ≤ T.dim2ind.length := by omega
  let a : Nat → Bool := fun i => act i || !T.isLeaf i
  have hal : ∀ c ∈ T.dim2ind, a c = act c := by
    intro c hc
    show (act c || !T.isLeaf c) = _
    rw [(isLeaf_mem T c).2 hc]; simp
  have hnl : ∀ i, i ∉ T.dim2ind → T.isLeaf i = false := by
    intro i hl
    rw [Bool.eq_false_iff]
    exact fun hh => hl ((isLeaf_mem _ _).1 hh)
  have hpar : ∀ c ∈ T.dim2ind, T.parent c ≠ 0 := by
    intro c hc h0
    exact Shaped.root_internal' hV h2 ((parent_eq_zero ((hV.leaves c).1 hc).1).1 h0) hc
  have hD : DiagTree (⟨T, equalNode x T act⟩ : TBT R) T a x.data (fun _ => x.data.length) (fun _ j s => if j = s then 1 else 0) := by
    refine ⟨rfl, hx, fun _ _ => hx, fun c hc ha => ?_, fun c hc ha => ?_, fun i _ hl => by simp [a, hnl i hl], fun i hi hl => ?_⟩
    · rw [hal c hc] at ha
      have : equalNode x T act c = eyeArr x.data.length := by
        unfold equalNode
        rw [if_neg (hpar c hc), if_pos (by rw [(isLeaf_mem T c).2 hc, ha]; rfl)]
      show (equalNode x T act c).shape = _ ∧ ∀ j s, _ → _ → (equalNode x T act c).get [j, s] = _
      rw [this]
      exact ⟨rfl, fun _ _ _ _ => rfl⟩
    · rw [hal c hc] at ha
      refine ⟨?_, rfl, fun _ _ => rfl⟩
      have : equalNode x T act c = emptyArr := by
        unfold equalNode
        rw [if_neg (hpar c hc), if_neg (by simp [ha]), if_neg ha]
      show (equalNode x T act c).shape.prod = 0
      rw [this]; rfl
    · show equalNode x T act i = _
      unfold equalNode
      by_cases hr : IsRoot T i
      · rw [if_pos ((parent_eq_zero hi).2 hr), if_pos hr]
      · rw [if_neg (fun h0 => hr ((parent_eq_zero hi).1 h0)), if_neg (by simp [hnl i hl]), if_pos (hact i hi hr hl), if_neg hr]
  obtain ⟨hw, f, f1, f2, f3⟩ := hD.full hV h2
  refine ⟨_, f, ?_, hw, rfl, fun c hc => ?_, f1, ?_, fun idx hi => ?_⟩
  · unfold ofDiagonal
    dsimp only [Option.getD_some]
    rw [if_neg]
    · exact mk_wf hw
    · rw [List.any_eq_true]
      rintro ⟨i, hi, hh⟩
      have hi := (mem_nodes i).1 hi
      unfold diagRefused at hh
      simp only [Bool.and_eq_true, decide_eq_true_eq, Bool.not_eq_true'] at hh
      have hr : ¬ IsRoot T i := fun hr => by have := (parent_eq_zero hi).2 hr; simp [this] at hh
      have hl : i ∉ T.dim2ind := fun hl => by rw [(isLeaf_mem T i).2 hl] at hh; simp at hh
      rw [hact i hi hr hl] at hh
      simp at hh
  · rw [hD.shaped.active hV h2 ((hV.leaves c).1 hc).1, hal c hc]
  · rw [f2, hT]
    show _ = List.replicate x.order x.data.length
    rw [List.map_const', List.length_range]
  · rw [f3 idx hi]
    have hib : InBox (List.replicate x.order x.data.length) idx := by
      rw [f2, hT, List.map_const', List.length_range] at hi; exact hi
    have hil : idx.length = x.order := by rw [hib.length_eq]; simp
    show _ = (FullTensor.diag x.data x.order).get idx
    rw [hT]
    rcases diag_cases (by omega) hib with ⟨i, hin, rfl⟩ | hoff
    · rw [diag_get_replicate _ (by omega) hin, sum_eq_single_of_mem i (mem_range.2 hin)]
      · have : (List.range x.order).map (fun k => if (List.replicate x.order i).getD k 0 = i then (1 : R) else 0) = List.replicate x.order 1 := by
          rw [List.eq_replicate_iff]
          refine ⟨by simp, fun b hb => ?_⟩
          obtain ⟨k, hk, rfl⟩ := List.mem_map.1 hb
          rw [List.getD_eq_getElem _ _ (by simpa using hk), List.getElem_replicate, if_pos rfl]
        rw [this, List.prod_replicate, one_pow, mul_one]
      · intro b _ hb
        have : (0 : R) ∈ (List.range x.order).map (fun k => if (List.replicate x.order i).getD k 0 = b then (1 : R) else 0) := by
          rw [List.mem_map]
          refine ⟨0, by simp; omega, ?_⟩
          rw [List.getD_eq_getElem _ _ (by simp; omega), List.getElem_replicate, if_neg (fun e => hb e.symm)]
        rw [List.prod_eq_zero this, mul_zero]
    · rw [diag_get_off _ (fun i _ => hoff i)]
      refine sum_eq_zero (fun s _ => ?_)
      have : (0 : R) ∈ (List.range x.order).map (fun k => if idx.getD k 0 = s then (1 : R) else 0) := by
        by_contra hn
        refine hoff s ?_
        rw [List.eq_replicate_iff]
        refine ⟨hil, fun b hb => ?_⟩
        obtain ⟨k, hk, rfl⟩ := List.getElem_of_mem hb
        by_contra hne
        refine hn (List.mem_map.2 ⟨k, List.mem_range.2 (by omega), ?_⟩)
        rw [List.getD_eq_getElem _ _ hk, if_neg hne]
      rw [List.prod_eq_zero this, mul_zero]

/-- C133. With the default arguments: the linear tree with inactive leaves. -/
theorem ofDiagonal_default [CommSemiring R] (x : Dg R) (ho : 2 ≤ x.order) (hx : 1 ≤ x.data.length) :
    ∃ y f, ofDiagonal x none none = .ok y ∧ WF y ∧ y.tree = DTree.linear (List.range x.order) ∧ (∀ c ∈ y.tree.dim2ind, y.active c = false) ∧
      full y = .ok f ∧ f ≃ₐ Diagonal.full x := by
  have hl := linear_length x.order (by omega)
  obtain ⟨y, f, h1, h2, h3, h4, h5, h6⟩ := ofDiagonal_full x (DTree.linear (List.range x.order)) (fun nod => !(DTree.linear (List.range x.order)).isLeaf nod)
    (linear_valid _ (by simpa using ho) (by simp)) ho hl hx (fun i _ _ hl => by
      have : (DTree.linear (List.range x.order)).isLeaf i = false := by
        rw [Bool.eq_false_iff]
        exact fun hh => hl ((isLeaf_mem _ _).1 hh)
      rw [this]; rfl)
  refine ⟨y, f, h1, h2, h3, fun c hc => ?_, h5, h6⟩
  rw [h3] at hc
  rw [h4 c hc, (isLeaf_mem _ _).2 hc]; rfl

/-- C133. An internal node that is not active is refused. -/
theorem ofDiagonal_refused [CommSemiring R] (x : Dg R) (T : DTree) (act : Nat → Bool) {i : Nat} (hi : IsNode T i) (hr : ¬ IsRoot T i) (hl : i ∉ T.dim2ind)
    (ha : act i = false) : ofDiagonal x (some T) (some act) = .error .valueError := by
  unfold ofDiagonal
  dsimp only [Option.getD_some]
  rw [if_pos]
  rw [List.any_eq_true]
  refine ⟨i, (mem_nodes i).2 hi, ?_⟩
  have : T.isLeaf i = false := by
    rw [Bool.eq_false_iff]
    exact fun hh => hl ((isLeaf_mem _ _).1 hh)
  unfold diagRefused
  rw [this, ha]
  have h0 : T.parent i ≠ 0 := fun h0 => hr ((parent_eq_zero hi).1 h0)
  simp [h0]

example : ∃ y f, ofDiagonal (⟨[1, -2], 3⟩ : Dg Int) none none = .ok y ∧ WF y ∧ y.tree = DTree.linear (List.range 3) ∧
    (∀ c ∈ y.tree.dim2ind, y.active c = false) ∧ full y = .ok f ∧ f ≃ₐ Diagonal.full (⟨[1, -2], 3⟩ : Dg Int) :=
  ofDiagonal_default _ (by decide) (by decide)

/-! ### C134: canonical tensors -/

/-- C134. `tree_based_tensor(tree, is_active_node)` of a canonical tensor whose dimensions are not all equal: for every tree of its order, every
choice of the active leaves, the entries of the result are those of the canonical tensor and the ranks of the active nodes are the canonical rank. -/
theorem ofCanonical_partial [CommSemiring R] (x : Cn R) (hx : Canonical.WF x) (T : DTree) (act : Option (Nat → Bool)) (hV : Valid T)
    (ho : 2 ≤ x.order) (hT : T.dim2ind.length = x.order) (hr : 1 ≤ x.core.length) (hn : ∀ n ∈ x.shape, 1 ≤ n)
    (hact : ∀ a, act = some a → ∀ i, IsNode T i → i ∉ T.dim2ind → a i = true) (hd : ∃ m ∈ x.shape, ∃ n ∈ x.shape, m ≠ n) :
    ∃ y f g, ofCanonical x T act = .ok y ∧ WF y ∧ y.tree = T ∧
      (∀ c, IsNode T c → y.active c = match act with | some a => a c | none => true) ∧
      (∀ i, IsNode T i → ¬ IsRoot T i → y.active i = true → y.lastDim i = x.core.length) ∧
      full y = .ok f ∧ Canonical.full x = .ok g ∧ f ≃ₐ g := by
  classical
  have h2 : 2 ≤ T.dim2ind.length := by omega
  have hsl : x.space.length = x.order := rfl
  have hnl : ∀ i, i ∉ T.dim2ind → T.isLeaf i = false := by
    intro i hl
    rw [Bool.eq_false_iff]
    exact fun hh => hl ((isLeaf_mem _ _).1 hh)
  have hfac : ∀ k (hk : k < x.order), (x.space.getD k ⟨[], fun _ => 0⟩).shape = [x.shape.getD k 0, x.core.length] := by
    intro k hk
    have hk' : k < x.space.length := hk
    rw [List.getD_eq_getElem _ _ hk', hx.shape_eq (List.getElem_mem hk')]
    congr 1
    unfold Cn.shape
    rw [List.getD_eq_getElem (x.space.map _) _ (by simpa using hk'), List.getElem_map]
  have hD : DiagTree (⟨T, canonNode x T⟩ : TBT R) T (fun _ => true) x.core (fun k => x.shape.getD k 0)
      (fun k j s => (x.space.getD k ⟨[], fun _ => 0⟩).get [j, s]) := by
    refine ⟨rfl, hr, fun k hk => ?_, fun c hc _ => ?_, fun _ _ h => absurd rfl h, fun _ _ _ => rfl, fun i hi hl => ?_⟩
    · have hk' : k < x.shape.length := by simp [Cn.shape, hsl]; omega
      rw [List.getD_eq_getElem _ _ hk']
      exact hn _ (List.getElem_mem _)
    · show (canonNode x T c).shape = _ ∧ ∀ j s, _ → _ → (canonNode x T c).get [j, s] = _
      have : canonNode x T c = x.space.getD (dimOf T c) ⟨[], fun _ => 0⟩ := by
        unfold canonNode
        rw [if_pos ((isLeaf_mem T c).2 hc)]; rfl
      rw [this]
      exact ⟨hfac _ (by rw [← hT]; exact List.idxOf_lt_length_of_mem hc), fun _ _ _ _ => rfl⟩
    · show canonNode x T i = _
      unfold canonNode
      rw [hnl i hl]
      by_cases hrt : IsRoot T i
      · rw [if_neg (by simp), if_pos ((parent_eq_zero hi).2 hrt), if_pos hrt]
      · rw [if_neg (by simp), if_neg (fun h0 => hrt ((parent_eq_zero hi).1 h0)), if_neg hrt]
  obtain ⟨hw, f, f1, f2, f3⟩ := hD.full hV h2
  have hmk : mk T (canonNode x T) = .ok ⟨T, canonNode x T⟩ := mk_wf hw
  obtain ⟨g, g1, g2, g3⟩ := Canonical.full_spec x hx
  have hfg : f ≃ₐ g := by
    have hs : f.shape = x.shape := by
      rw [f2, hT]
      apply List.ext_getElem (by simp [Cn.shape, hsl])
      intro k k1 k2
      simp [List.getElem?_eq_getElem k2]
    refine ⟨hs.trans g2.symm, fun idx hi => ?_⟩
    rw [f3 idx hi, g3 idx (by rw [g2, ← hs]; exact hi), hT]
    refine sum_congr rfl (fun s _ => ?_)
    congr 2
    have hil : idx.length = x.order := by rw [hi.length_eq, hs]; simp [Cn.shape, hsl]
    apply List.ext_getElem (by simp [hil, hsl])
    intro k k1 k2
    have hk : k < x.order := by simpa using k1
    simp only [List.getElem_map, List.getElem_range, List.getElem_zipWith]
    rw [List.getD_eq_getElem _ _ (by omega), List.getD_eq_getElem _ _ (by omega)]
  have hasg : assignable x.space T = true := by
    unfold assignable
    rw [Bool.and_eq_true, decide_eq_true_eq, List.any_eq_true]
    refine ⟨by omega, ?_⟩
    by_contra hcon
    push Not at hcon
    obtain ⟨m, hm, n, hn', hmn⟩ := hd
    unfold Cn.shape at hm hn'
    obtain ⟨A, hA, rfl⟩ := List.mem_map.1 hm
    obtain ⟨B, hB, rfl⟩ := List.mem_map.1 hn'
    have e1 := hcon A hA
    have e2 := hcon B hB
    simp only [ne_eq, decide_not, Bool.not_eq_true', decide_eq_false_iff_not, not_not] at e1 e2
    obtain ⟨M, l, hM⟩ := List.exists_cons_of_ne_nil hx.ne
    rw [hM] at e1 e2
    exact hmn (by rw [e1, e2]; rfl)
  cases act with
  | none =>
    refine ⟨_, f, g, ?_, hw, rfl, fun c hc => hD.shaped.active hV h2 hc, fun i hi hrt _ => hD.shaped.lastDim hi hrt rfl, f1, g1, hfg⟩
    unfold ofCanonical
    rw [if_pos hasg, hmk]; rfl
  | some a =>
    obtain ⟨y, fa, fb, y1, y2, y3, y4, y5, y6, y7, y8, y9, y10⟩ := inactivateNodes_full (⟨T, canonNode x T⟩ : TBT R) hw (T.nodes.filter (fun i => !a i)) (by
      intro i hi
      obtain ⟨hi1, hi2⟩ := List.mem_filter.1 hi
      have hi1 := (mem_nodes i).1 hi1
      by_contra hl
      rw [hact a rfl i hi1 hl] at hi2
      simp at hi2)
    rw [f1] at y3
    obtain rfl : f = fa := by cases y3; rfl
    have hmem : ∀ i, IsNode T i → (i ∈ T.nodes.filter (fun i => !a i) ↔ a i = false) := by
      intro i hi
      rw [List.mem_filter, mem_nodes]
      simp [hi]
    refine ⟨y, fb, g, ?_, y2, y6, fun c hc => ?_, fun i hi hrt ha => ?_, y4, g1, ?_⟩
    · unfold ofCanonical
      rw [if_pos hasg, hmk]
      exact y1
    · have := y9 c hc
      rw [hD.shaped.active hV h2 hc, hmem c hc] at this
      show y.active c = a c
      cases h1 : y.active c <;> cases h3 : a c <;> simp_all
    · have := (y9 i hi).1 ha
      rw [y10 i hi hrt this.2 this.1]
      exact hD.shaped.lastDim hi hrt rfl
    · exact y5.trans hfg

/-- C134. A canonical tensor whose dimensions are all equal cannot be converted, whatever the tree. -/
theorem ofCanonical_equal [CommSemiring R] (x : Cn R) (hx : Canonical.WF x) (T : DTree) (act : Option (Nat → Bool))
    (hd : ∀ m ∈ x.shape, ∀ n ∈ x.shape, m = n) : ofCanonical x T act = .error .valueError := by
  unfold ofCanonical
  rw [if_neg]
  rw [Bool.not_eq_true]
  unfold assignable
  rw [Bool.and_eq_false_iff]
  right
  rw [Bool.eq_false_iff]
  intro hh
  obtain ⟨M, hM, hne⟩ := List.any_eq_true.1 hh
  simp only [ne_eq, decide_not, Bool.not_eq_true', decide_eq_false_iff_not] at hne
  obtain ⟨A, l, hA⟩ := List.exists_cons_of_ne_nil hx.ne
  refine hne ?_
  rw [hA]
  show M.shape = A.shape
  have hAm : A ∈ x.space := by rw [hA]; simp
  rw [hx.shape_eq hM, hx.shape_eq hAm, hd _ (List.mem_map.2 ⟨M, hM, rfl⟩) _ (List.mem_map.2 ⟨A, hAm, rfl⟩)]

/-- A canonical tensor of order three with dimensions 2, 3, 2. -/
def exC3 : Cn Int := ⟨[⟨[2, 2], fun l => l.sum⟩, ⟨[3, 2], fun l => l.sum⟩, ⟨[2, 2], fun l => l.sum⟩], [1, 2]⟩

example : Canonical.WF exC3 ∧ 2 ≤ exC3.order ∧ exTree.dim2ind.length = exC3.order ∧ Valid exTree ∧ 1 ≤ exC3.core.length ∧ (∀ n ∈ exC3.shape, 1 ≤ n) ∧
    ∃ m ∈ exC3.shape, ∃ n ∈ exC3.shape, m ≠ n := by
  refine ⟨⟨by simp [exC3], fun M hM => ?_⟩, by decide, by decide, exTree_valid, by decide, by decide, by decide⟩
  simp [exC3] at hM
  rcases hM with rfl | rfl | rfl
  exacts [⟨2, rfl⟩, ⟨3, rfl⟩, ⟨2, rfl⟩]

end Verif.TreeBased
