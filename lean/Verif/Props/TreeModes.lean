import Verif.Lemmas.TreeLeaf
import Verif.Props.FullTensorIndex

/-!
# Mode products and sub-tensors of tree-based tensors (C36)
-/

namespace Verif.TreeBased

open Verif.Arr Verif.DimTree Finset

variable {R : Type}

/-- What one step on a dimension must establish. -/
structure StepOk [CommSemiring R] (x x' : TBT R) (d : Nat) : Prop where
  wf : WF x'
  tree : x'.tree = x.tree
  active : ∀ i, x'.active i = x.active i
  shape : ∀ k, k ≠ d → x'.shape.getD k 0 = x.shape.getD k 0

/-- A loop on distinct dimensions follows a dense loop, if each step does. -/
theorem fold_dims [CommSemiring R] {α : Type} (x : TBT R) (f : Arr R → α → Nat → Py (Arr R))
    (g : Arr R → α × Nat → Py (Arr R)) (Ok : α → Nat → Prop)
    (hstep : ∀ (ts : Nat → Arr R) (p : α × Nat), WF ⟨x.tree, ts⟩ → (∀ i, (⟨x.tree, ts⟩ : TBT R).active i = x.active i) →
      p.2 < x.order → Ok p.1 ((⟨x.tree, ts⟩ : TBT R).shape.getD p.2 0) →
      ∃ a, f (ts (carrier x (x.tree.dim2ind.getD p.2 0)).1) p.1 (carrier x (x.tree.dim2ind.getD p.2 0)).2 = .ok a ∧
        StepOk ⟨x.tree, ts⟩ ⟨x.tree, upd ts (carrier x (x.tree.dim2ind.getD p.2 0)).1 a⟩ p.2 ∧
        ∀ y0 y, full ⟨x.tree, ts⟩ = .ok y0 → y0 ≃ₐ y → ∃ y' y0', g y p = .ok y' ∧
          full ⟨x.tree, upd ts (carrier x (x.tree.dim2ind.getD p.2 0)).1 a⟩ = .ok y0' ∧ y0' ≃ₐ y') :
    ∀ (l : List (α × Nat)) (ts : Nat → Arr R) (y0 y : Arr R), (l.map Prod.snd).Nodup → WF ⟨x.tree, ts⟩ →
      (∀ i, (⟨x.tree, ts⟩ : TBT R).active i = x.active i) →
      (∀ p ∈ l, p.2 < x.order ∧ Ok p.1 ((⟨x.tree, ts⟩ : TBT R).shape.getD p.2 0)) →
      full ⟨x.tree, ts⟩ = .ok y0 → y0 ≃ₐ y →
      ∃ ts' y' y0', (l.foldlM (fun ts p => do
          let c := carrier x (x.tree.dim2ind.getD p.2 0)
          .ok (upd ts c.1 (← f (ts c.1) p.1 c.2))) ts : Py _) = .ok ts' ∧ WF ⟨x.tree, ts'⟩ ∧
        (∀ i, (⟨x.tree, ts'⟩ : TBT R).active i = x.active i) ∧
        l.foldlM g y = .ok y' ∧ full ⟨x.tree, ts'⟩ = .ok y0' ∧ y0' ≃ₐ y' := by
  intro l
  induction l with
  | nil => intro ts y0 y _ hwf hact _ hy0 hy; exact ⟨ts, y, y0, rfl, hwf, hact, rfl, hy0, hy⟩
  | cons p l ih =>
    intro ts y0 y hnd hwf hact hok hy0 hy
    rw [List.map_cons, List.nodup_cons] at hnd
    obtain ⟨a, a1, a2, a3⟩ := hstep ts p hwf hact (hok p (by simp)).1 (hok p (by simp)).2
    obtain ⟨y', y0', b1, b2, b3⟩ := a3 y0 y hy0 hy
    obtain ⟨ts', z, z0, c1, c2, c3, c4, c5, c6⟩ := ih (upd ts (carrier x (x.tree.dim2ind.getD p.2 0)).1 a) y0' y' hnd.2 a2.wf
      (fun i => by rw [a2.active, hact]) (fun q hq => by
        refine ⟨(hok q (by simp [hq])).1, ?_⟩
        rw [a2.shape q.2 (fun e => hnd.1 (e ▸ List.mem_map_of_mem hq))]
        exact (hok q (by simp [hq])).2) b2 b3
    refine ⟨ts', z, z0, ?_, c2, c3, ?_, c5, c6⟩
    · rw [List.foldlM_cons]
      simp only [a1, bind, Except.bind]
      exact c1
    · rw [List.foldlM_cons, b1]; exact c4

theorem LeafStep.stepOk [CommSemiring R] {x x' : TBT R} {c n' : Nat} {M : Nat → Nat → R} (hs : LeafStep x x' c n' M)
    (h : WF x) (hc : c ∈ x.tree.dim2ind) (hn : 0 < n') : StepOk x x' (dimOf x.tree c) where
  wf := hs.wf h hc hn
  tree := hs.tree
  active := hs.active h hc hn
  shape := fun k hk => by
    rw [hs.shapeEq h hc hn]
    simp only [List.getD_eq_getElem?_getD, List.getElem?_set_ne (Ne.symm hk)]

theorem carrier_congr {x x' : TBT R} (ht : x'.tree = x.tree) {c : Nat} (ha : x'.active c = x.active c) :
    carrier x' c = carrier x c := by
  unfold carrier; rw [ha, ht]

/-- The size of the axis of the carrier. -/
theorem leafSize_carrier (x : TBT R) (c : Nat) :
    x.leafSize c = (x.tensors (carrier x c).1).shape.getD (carrier x c).2 0 := by
  unfold TBT.leafSize carrier
  split <;> rfl

theorem carrier_lt {x : TBT R} (h : WF x) {c : Nat} (hc : c ∈ x.tree.dim2ind) :
    (carrier x c).2 < (x.tensors (carrier x c).1).order ∧ (x.tensors (carrier x c).1).order ≠ 1 := by
  by_cases ha : x.active c = true
  · rw [carrier_active ha]
    obtain ⟨n, r, hsh⟩ := h.leaf c hc ha
    unfold Arr.order
    rw [hsh]; simp
  · rw [carrier_inactive ha]
    have he := leaf_has_parent h hc
    obtain ⟨_, n2, _, n4⟩ := h.node _ he.1 (edge_internal h.valid he)
    have hlt := childAxis_lt h.valid he
    unfold Arr.order
    rw [n2, List.length_append, List.length_map]
    refine ⟨by simp only; omega, ?_⟩
    intro h1
    by_cases hr : IsRoot x.tree (x.tree.parent c)
    · -- a root with one child that is a leaf: order one
      have hch : (x.tree.children (x.tree.parent c)).length = 1 := by omega
      obtain ⟨c', hc'⟩ := List.length_eq_one_iff.1 hch
      have hcc : c = c' := by
        have := (mem_children _ c he.1).2 he
        rw [hc'] at this; simpa using this
      have hall : ∀ l ∈ x.tree.dim2ind, l = c := by
        intro l hl
        obtain ⟨r', hr', hanc⟩ := h.valid.rooted
        have := hanc l ((h.valid.leaves l).1 hl).1
        rw [← root_unique h.valid hr hr'] at this
        rcases ancSelf_cases this with e | ⟨d, hd, hdl⟩
        · exact absurd hl (e ▸ edge_internal h.valid he)
        · have hd' := (mem_children _ d he.1).2 hd
          rw [hc', ← hcc] at hd'
          have hdc : d = c := by simpa using hd'
          exact (ancSelf_leaf h.valid hc (hdc ▸ hdl)).symm
      have h2 := h.order
      have e0 := hall _ (List.getElem_mem (show 0 < x.tree.dim2ind.length by omega))
      have e1 := hall _ (List.getElem_mem (show 1 < x.tree.dim2ind.length by omega))
      have := (List.Nodup.getElem_inj_iff h.valid.nodup (i := 0) (j := 1) (hi := by omega) (hj := by omega)).1 (e0.trans e1.symm)
      omega
    · have := n4 hr
      omega

theorem dim2ind_getD_mem {T : DTree} {d : Nat} (hd : d < T.dim2ind.length) : T.dim2ind.getD d 0 ∈ T.dim2ind := by
  rw [List.getD_eq_getElem _ _ hd]; exact List.getElem_mem hd

theorem dimOf_getD {T : DTree} (hV : Valid T) {d : Nat} (hd : d < T.dim2ind.length) : dimOf T (T.dim2ind.getD d 0) = d := by
  rw [List.getD_eq_getElem _ _ hd]
  exact hV.nodup.idxOf_getElem d hd

theorem mk_wf [CommSemiring R] {T : DTree} {ts : Nat → Arr R} (h : WF (⟨T, ts⟩ : TBT R)) : mk T ts = .ok ⟨T, ts⟩ := by
  unfold mk
  rw [if_pos]
  rw [List.all_eq_true]
  intro i hi
  unfold DTree.internalNodes at hi
  rw [List.mem_filter, mem_nodes] at hi
  refine (h.node i hi.1 (fun hm => ?_)).1
  have := hi.2
  rw [List.contains_iff_mem.2 hm] at this
  simp at this

/-! ### tensor_matrix_product -/

theorem tmp_single [CommSemiring R] (a M : Arr R) (axis : Nat) :
    FullTensor.tensorMatrixProduct a [M] (some [axis]) = FullTensor.tmpStep a (M, axis) := by
  unfold FullTensor.tensorMatrixProduct
  simp only [Option.getD_some, List.length_cons, List.length_nil, ne_eq, not_true_eq_false, if_false,
    List.zip_cons_cons, List.zip_nil_right, List.foldlM_cons, List.foldlM_nil]
  cases FullTensor.tmpStep a (M, axis) <;> rfl

/-- The matrix `M` fits a dimension of size `n` and has at least one row. -/
def MatOk (M : Arr R) (n : Nat) : Prop := ∃ m, 0 < m ∧ M.shape = [m, n]

theorem tmp_step [CommSemiring R] (x : TBT R) (ts : Nat → Arr R) (p : Arr R × Nat) (hwf : WF ⟨x.tree, ts⟩)
    (hact : ∀ i, (⟨x.tree, ts⟩ : TBT R).active i = x.active i) (hp : p.2 < x.order)
    (hok : MatOk p.1 ((⟨x.tree, ts⟩ : TBT R).shape.getD p.2 0)) :
    ∃ a, FullTensor.tensorMatrixProduct (ts (carrier x (x.tree.dim2ind.getD p.2 0)).1) [p.1]
          (some [(carrier x (x.tree.dim2ind.getD p.2 0)).2]) = .ok a ∧
        StepOk ⟨x.tree, ts⟩ ⟨x.tree, upd ts (carrier x (x.tree.dim2ind.getD p.2 0)).1 a⟩ p.2 ∧
        ∀ y0 y, full ⟨x.tree, ts⟩ = .ok y0 → y0 ≃ₐ y → ∃ y' y0', FullTensor.tmpStep y p = .ok y' ∧
          full ⟨x.tree, upd ts (carrier x (x.tree.dim2ind.getD p.2 0)).1 a⟩ = .ok y0' ∧ y0' ≃ₐ y' := by
  set z : TBT R := ⟨x.tree, ts⟩ with hz
  set c := x.tree.dim2ind.getD p.2 0 with hcdef
  have hc : c ∈ z.tree.dim2ind := dim2ind_getD_mem hp
  have hdc : dimOf z.tree c = p.2 := dimOf_getD hwf.valid hp
  have hcar : carrier z c = carrier x c := carrier_congr (x := x) (x' := z) rfl (hact c)
  obtain ⟨m, hm, hM⟩ := hok
  rw [← hdc, shape_getD hc] at hM
  have hlt := carrier_lt hwf hc
  have hM' := hM
  rw [leafSize_carrier z c] at hM'
  obtain ⟨a, a1, a2, a3⟩ := FullTensor.tmpStep_spec (z.tensors (carrier z c).1) p.1 (carrier z c).2 m hlt.1 hM'
  have hstep : LeafStep z ⟨x.tree, upd ts (carrier x c).1 a⟩ c m (fun i j => p.1.get [i, j]) := by
    refine ⟨rfl, ?_, ?_, ?_⟩
    · intro i hi
      rw [hcar] at hi
      show upd ts (carrier x c).1 a i = _
      unfold upd; rw [if_neg hi]
    · rw [hcar]
      show (upd ts (carrier x c).1 a (carrier x c).1).shape = _
      unfold upd; rw [if_pos rfl, a2, hcar]
    · intro idx hidx
      rw [← a2] at hidx
      rw [leafSize_carrier z c, hcar]
      show (upd ts (carrier x c).1 a (carrier x c).1).get idx = _
      unfold upd; rw [if_pos rfl, a3 idx hidx, hcar]
  refine ⟨a, ?_, ?_, ?_⟩
  · rw [tmp_single, ← a1, hcar]
  · have := hstep.stepOk hwf hc hm
    rw [hdc] at this
    exact this
  · intro y0 y hy0 hyy
    obtain ⟨w, w', w1, w2, w3, w4, w5, w6, w7⟩ := hstep.full_step hwf hc hm
    rw [hy0] at w1; cases w1
    have hd0 : p.2 < y0.order := by rw [hdc] at w4; omega
    rw [hdc] at w3 w6 w7
    have hMy : p.1.shape = [m, y0.shape.getD p.2 0] := by rw [w6]; exact hM
    obtain ⟨u, v, u1, u2, u3⟩ := FullTensor.tmpStep_congr hyy p.1 p.2 ⟨hd0, m, hMy⟩
    obtain ⟨u', v1, v2, v3⟩ := FullTensor.tmpStep_spec y0 p.1 p.2 m hd0 hMy
    rw [u1] at v1; cases v1
    refine ⟨v, w', u2, w2, Same.trans ⟨by rw [w3, v2], ?_⟩ u3⟩
    intro idx hidx
    rw [w7 idx hidx, v3 idx (by rw [v2, ← w3]; exact hidx), w6]

/-- C36. `tensor_matrix_product(matrices, dims)` on a tree-based tensor represents the dense mode product, for active
and inactive leaves, for distinct dimensions and matrices with at least one row. -/
theorem tensorMatrixProduct_full [CommSemiring R] (x : TBT R) (h : WF x) (ms : List (Arr R)) (dims : List Nat)
    (hnd : dims.Nodup) (hlt : ∀ d ∈ dims, d < x.order)
    (hfit : List.Forall₂ (fun M d => MatOk M (x.shape.getD d 0)) ms dims) :
    ∃ x' y z z', tensorMatrixProduct x ms (some dims) = .ok x' ∧ WF x' ∧ full x = .ok y ∧ full x' = .ok z ∧
      FullTensor.tensorMatrixProduct y ms (some dims) = .ok z' ∧ z ≃ₐ z' := by
  obtain ⟨y, r, hy, _⟩ := full_spec x h
  have hlen := hfit.length_eq
  have hpairs : dims.map (fun d => (ms.getD (dims.idxOf d) ⟨[], fun _ => 0⟩, d)) = ms.zip dims := by
    apply List.ext_getElem (by simp [hlen])
    intro k h1 h2
    have hk : k < dims.length := by simpa using h1
    rw [List.getElem_map, List.getElem_zip, hnd.idxOf_getElem k hk, List.getD_eq_getElem _ _ (by omega)]
  obtain ⟨ts', z', z, f1, f2, _, f4, f5, f6⟩ := fold_dims x
    (fun a M axis => FullTensor.tensorMatrixProduct a [M] (some [axis])) FullTensor.tmpStep MatOk
    (tmp_step x) (ms.zip dims) x.tensors y y
    (by rw [List.map_snd_zip (by omega)]; exact hnd) h (fun _ => rfl)
    (by
      intro p hp
      refine ⟨hlt p.2 (List.of_mem_zip hp).2, ?_⟩
      exact (List.forall₂_iff_zip.1 hfit).2 hp) hy (Same.refl y)
  refine ⟨⟨x.tree, ts'⟩, y, z, z', ?_, f2, hy, f5, ?_, f6⟩
  · unfold tensorMatrixProduct
    simp only [Option.getD_some]
    rw [if_neg (by simp [hlen]), if_neg ?_, hpairs]
    · unfold forDims
      simp only [bind, Except.bind] at f1 ⊢
      rw [f1]
      exact mk_wf f2
    · simp only [List.any_eq_true, decide_eq_true_eq, not_exists, not_and, not_le]
      exact hlt
  · unfold FullTensor.tensorMatrixProduct
    simp only [Option.getD_some]
    rw [if_neg (by simp [hlen])]
    exact f4

/-- A number of matrices different from the number of dimensions is refused. -/
theorem tensorMatrixProduct_refused [CommSemiring R] (x : TBT R) (ms : List (Arr R)) (dims : List Nat)
    (h : ms.length ≠ dims.length) : tensorMatrixProduct x ms (some dims) = .error .assertionError := by
  unfold tensorMatrixProduct
  simp only [Option.getD_some]
  rw [if_pos h]

example : List.Forall₂ (fun (M : Arr Int) d => MatOk M (exT.shape.getD d 0))
    [⟨[4, 2], fun i => i.sum⟩, ⟨[1, 3], fun i => i.sum⟩] [1, 0] :=
  .cons ⟨4, by decide, by decide +kernel⟩ (.cons ⟨1, by decide, by decide +kernel⟩ .nil)

/-! ### sub_tensor -/

/-- A selection in a dimension of size `n`: all the subscripts, or a nonempty list of subscripts in range. -/
def SelOk (ind : Option (List Nat)) (n : Nat) : Prop := ∀ l, ind = some l → l ≠ [] ∧ ∀ i ∈ l, i < n

theorem pickAxis_spec (a : Arr R) (l : List Nat) (axis : Nat) (hd : axis < a.order) (ho : a.order ≠ 1)
    (hl : ∀ i ∈ l, i < a.shape.getD axis 0) :
    ∃ b, pickAxis a (some l) axis = .ok b ∧ b.shape = a.shape.set axis l.length ∧
      ∀ idx, InBox b.shape idx → b.get idx = a.get (idx.set axis (l.getD (idx.getD axis 0) 0)) := by
  obtain ⟨b, b1, b2, b3⟩ := FullTensor.evalAtIndices_one a (l.map (fun i => [i])) axis hd ho (by
    intro r hr
    obtain ⟨i, hi, rfl⟩ := List.mem_map.1 hr
    exact inBox_one (hl i hi))
  rw [List.length_map] at b2 b3
  refine ⟨b, b1, b2, ?_⟩
  intro idx hidx
  have hlen : idx.length = a.shape.length := by rw [hidx.length_eq, b2, List.length_set]
  have hax : axis < idx.length := by rw [hlen]; exact hd
  rw [b2, inBox_iff_getD] at hidx
  have hk : idx.getD axis 0 < l.length := by
    have := hidx.2 axis (by rw [List.length_set]; exact hd)
    rwa [List.getD_eq_getElem (l := a.shape.set axis l.length) _ (by rw [List.length_set]; exact hd), List.getElem_set_self] at this
  have hmem : l.getD (idx.getD axis 0) 0 ∈ l := by rw [List.getD_eq_getElem _ _ hk]; exact List.getElem_mem hk
  have hself : (idx.set axis (l.getD (idx.getD axis 0) 0)).getD axis 0 = l.getD (idx.getD axis 0) 0 := by
    rw [List.getD_eq_getElem (l := idx.set axis _) _ (by simpa using hax), List.getElem_set_self]
  have := b3 (idx.set axis (l.getD (idx.getD axis 0) 0)) (by
    rw [inBox_iff_getD]
    refine ⟨by simpa using hlen, fun k hk' => ?_⟩
    by_cases hka : axis = k
    · subst hka; rw [hself]; exact hl _ hmem
    · have h2 := hidx.2 k (by simpa using hk')
      simp only [List.getD_eq_getElem?_getD, List.getElem?_set_ne hka] at h2 ⊢
      exact h2) (idx.getD axis 0) hk (by
    rw [hself, List.getD_eq_getElem (l := l.map _) _ (by simpa using hk), List.getElem_map, List.getD_eq_getElem _ _ hk])
  rw [List.set_set] at this
  rw [← this]
  congr 1
  apply List.ext_getElem (by simp)
  intro k k1 k2
  rw [List.getElem_set]
  split
  · rename_i e; subst e; rw [List.getD_eq_getElem _ _ hax]
  · rfl

theorem sub_step [CommSemiring R] (x : TBT R) (ts : Nat → Arr R) (p : Option (List Nat) × Nat) (hwf : WF ⟨x.tree, ts⟩)
    (hact : ∀ i, (⟨x.tree, ts⟩ : TBT R).active i = x.active i) (hp : p.2 < x.order)
    (hok : SelOk p.1 ((⟨x.tree, ts⟩ : TBT R).shape.getD p.2 0)) :
    ∃ a, pickAxis (ts (carrier x (x.tree.dim2ind.getD p.2 0)).1) p.1 (carrier x (x.tree.dim2ind.getD p.2 0)).2 = .ok a ∧
        StepOk ⟨x.tree, ts⟩ ⟨x.tree, upd ts (carrier x (x.tree.dim2ind.getD p.2 0)).1 a⟩ p.2 ∧
        ∀ y0 y, full ⟨x.tree, ts⟩ = .ok y0 → y0 ≃ₐ y → ∃ y' y0', FullTensor.subStep y p = .ok y' ∧
          full ⟨x.tree, upd ts (carrier x (x.tree.dim2ind.getD p.2 0)).1 a⟩ = .ok y0' ∧ y0' ≃ₐ y' := by
  obtain ⟨ind, d⟩ := p
  cases ind with
  | none =>
    have hid : upd ts (carrier x (x.tree.dim2ind.getD d 0)).1 (ts (carrier x (x.tree.dim2ind.getD d 0)).1) = ts := by
      funext j; unfold upd; split
      · rename_i e; rw [e]
      · rfl
    refine ⟨ts (carrier x (x.tree.dim2ind.getD d 0)).1, rfl, ?_, ?_⟩
    · simp only [hid]; exact ⟨hwf, rfl, fun _ => rfl, fun _ _ => rfl⟩
    · intro y0 y hy0 hyy
      simp only [hid]
      exact ⟨y, y0, rfl, hy0, hyy⟩
  | some l =>
    set z : TBT R := ⟨x.tree, ts⟩ with hz
    simp only at hp hok ⊢
    set c := x.tree.dim2ind.getD d 0 with hcdef
    have hc : c ∈ z.tree.dim2ind := dim2ind_getD_mem hp
    have hdc : dimOf z.tree c = d := dimOf_getD hwf.valid hp
    have hcar : carrier z c = carrier x c := carrier_congr (x := x) (x' := z) rfl (hact c)
    obtain ⟨hne, hin⟩ := hok l rfl
    have hm : 0 < l.length := List.length_pos_iff.2 hne
    rw [← hdc, shape_getD hc] at hin
    have hlt := carrier_lt hwf hc
    obtain ⟨a, a1, a2, a3⟩ := pickAxis_spec (z.tensors (carrier z c).1) l (carrier z c).2 hlt.1 hlt.2 (by
      rw [← leafSize_carrier z c]; exact hin)
    have hpickin : ∀ k, k < l.length → l.getD k 0 < z.leafSize c := fun k hk => by
      rw [List.getD_eq_getElem _ _ hk]; exact hin _ (List.getElem_mem hk)
    have hstep : LeafStep z ⟨x.tree, upd ts (carrier x c).1 a⟩ c l.length (fun i j => if j = l.getD i 0 then 1 else 0) := by
      refine ⟨rfl, ?_, ?_, ?_⟩
      · intro i hi
        rw [hcar] at hi
        show upd ts (carrier x c).1 a i = _
        unfold upd; rw [if_neg hi]
      · rw [hcar]
        show (upd ts (carrier x c).1 a (carrier x c).1).shape = _
        unfold upd; rw [if_pos rfl, a2, hcar]
      · intro idx hidx
        rw [← a2] at hidx
        have hk : idx.getD (carrier z c).2 0 < l.length := by
          rw [a2, inBox_iff_getD] at hidx
          have := hidx.2 (carrier z c).2 (by rw [List.length_set]; exact hlt.1)
          rwa [List.getD_eq_getElem (l := List.set _ _ _) _ (by rw [List.length_set]; exact hlt.1), List.getElem_set_self] at this
        have e1 : (upd ts (carrier x c).1 a (carrier z c).1).get idx = a.get idx := by
          rw [hcar]; unfold upd; rw [if_pos rfl]
        show (upd ts (carrier x c).1 a (carrier z c).1).get idx = _
        rw [e1, a3 idx hidx]
        simp only [mul_ite, mul_one, mul_zero]
        rw [sum_ite_eq', if_pos (mem_range.2 (hpickin _ hk))]
    refine ⟨a, ?_, ?_, ?_⟩
    · rw [← a1, hcar]
    · have := hstep.stepOk hwf hc hm
      rw [hdc] at this
      exact this
    · intro y0 y hy0 hyy
      obtain ⟨w, w', w1, w2, w3, w4, w5, w6, w7⟩ := hstep.full_step hwf hc hm
      rw [hy0] at w1; cases w1
      have hd0 : d < y0.order := by rw [hdc] at w4; omega
      rw [hdc] at w3 w6 w7
      refine ⟨y.take l d, w', ?_, w2, ⟨?_, ?_⟩⟩
      · unfold FullTensor.subStep
        simp only
        rw [if_pos]
        rw [← hyy.1, w6]; exact hin
      · rw [w3]
        show _ = y.shape.set d l.length
        rw [hyy.1]
      · intro idx hidx
        rw [w7 idx hidx]
        have hidx' := hidx
        rw [w3, inBox_iff_getD] at hidx'
        have hk : idx.getD d 0 < l.length := by
          have := hidx'.2 d (by rw [List.length_set]; exact hd0)
          rwa [List.getD_eq_getElem (l := List.set _ _ _) _ (by rw [List.length_set]; exact hd0), List.getElem_set_self] at this
        simp only [mul_ite, mul_one, mul_zero]
        rw [sum_ite_eq', if_pos (mem_range.2 (hpickin _ hk))]
        show _ = y.get (idx.set d (l.getD (idx.getD d 0) 0))
        apply hyy.2
        rw [inBox_iff_getD]
        have hil : idx.length = y0.shape.length := by simpa using hidx'.1
        refine ⟨by simpa using hil, fun k hk' => ?_⟩
        by_cases hka : d = k
        · subst hka
          rw [List.getD_eq_getElem (l := List.set _ _ _) _ (by rw [List.length_set, hil]; exact hk'), List.getElem_set_self, w6]
          exact hpickin _ hk
        · have h2 := hidx'.2 k (by simpa using hk')
          simp only [List.getD_eq_getElem?_getD, List.getElem?_set_ne hka] at h2 ⊢
          exact h2

theorem foldlM_none (y : Arr R) (n k : Nat) :
    ((List.replicate n (none : Option (List Nat))).zipIdx k).foldlM FullTensor.subStep y = .ok y := by
  induction n generalizing k with
  | zero => rfl
  | succ n ih =>
    rw [List.replicate_succ, List.zipIdx_cons, List.foldlM_cons]
    exact ih (k + 1)

/-- C36. `sub_tensor(*indices)` on a tree-based tensor represents the dense sub-tensor (the rank axis of the root, when
there is one, is kept), for nonempty selections. -/
theorem subTensor_full [CommSemiring R] (x : TBT R) (h : WF x) (indices : List (Option (List Nat)))
    (hsel : List.Forall₂ SelOk indices x.shape) :
    ∃ x' y z z', subTensor x indices = .ok x' ∧ WF x' ∧ full x = .ok y ∧ full x' = .ok z ∧
      FullTensor.subTensor y (indices ++ List.replicate (y.order - x.order) none) = .ok z' ∧ z ≃ₐ z' ∧
      (∀ i, x'.active i = x.active i) ∧ x'.tree = x.tree := by
  obtain ⟨y, r, hy, _, hysh, _⟩ := full_spec x h
  have hlen : indices.length = x.order := by rw [hsel.length_eq]; simp [TBT.shape, TBT.order]
  have hord : x.order ≤ y.order := by
    show _ ≤ y.shape.length
    rw [hysh]; simp [TBT.shape, TBT.order]
  obtain ⟨ts', z', z, f1, f2, f3, f4, f5, f6⟩ := fold_dims x pickAxis FullTensor.subStep SelOk (sub_step x) indices.zipIdx
    x.tensors y y (by
      rw [List.zipIdx_map_snd]
      exact List.nodup_range') h (fun _ => rfl)
    (by
      intro p hp
      obtain ⟨ind, k⟩ := p
      have hk := List.mem_zipIdx' hp
      have hk1 : k < x.order := by rw [← hlen]; exact hk.1
      refine ⟨hk1, ?_⟩
      have := (List.forall₂_iff_get.1 hsel).2 k hk.1 (by simpa [TBT.shape, TBT.order] using hk1)
      rw [List.getD_eq_getElem _ _ (by simpa [TBT.shape, TBT.order] using hk1)]
      simp only [List.get_eq_getElem] at this
      rw [hk.2]
      exact this) hy (Same.refl y)
  refine ⟨⟨x.tree, ts'⟩, y, z, z', ?_, f2, hy, f5, ?_, f6, f3, rfl⟩
  · unfold subTensor
    rw [if_neg (by simp [hlen])]
    unfold forDims
    simp only [bind, Except.bind] at f1 ⊢
    rw [f1]
    exact mk_wf f2
  · unfold FullTensor.subTensor
    rw [if_neg (by simp [hlen]; omega), List.take_of_length_le (by simp [hlen]; omega), List.zipIdx_append, List.foldlM_append,
      f4]
    exact foldlM_none _ _ _

/-- A wrong number of selections is refused. -/
theorem subTensor_refused (x : TBT R) (indices : List (Option (List Nat))) (h : indices.length ≠ x.order) :
    subTensor x indices = .error .assertionError := by
  unfold subTensor; rw [if_pos h]

example : List.Forall₂ SelOk [some [2, 0, 2], none, some [1]] exT.shape := by
  rw [show exT.shape = [3, 2, 2] by decide +kernel]
  exact .cons (by intro l h; cases h; decide) (.cons (by intro l h; cases h) (.cons (by intro l h; cases h; decide) .nil))

end Verif.TreeBased
