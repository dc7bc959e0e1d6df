import Verif.Model.FunctionalTensor
import Verif.Props.EvalDiag
import Verif.Props.TreeEval
import Verif.Props.TensorBases
import Verif.Props.Grids
import Verif.Lemmas.Entries
import Verif.Lemmas.Matricize

/-! Functional tensors: evaluation, mean, evaluation on a grid. -/

namespace Verif
namespace FunctionalTensor

open Arr TreeBased Bases Finset

variable {K : Type}

/-- The tensor `t` represents the dense tensor `a` with one axis per dimension. -/
def Represents [CommSemiring K] (t : TVal K) (a : Arr K) : Prop :=
  match t with
  | .full b => b = a ∧ a.order ≠ 0
  | .tree x => WF x ∧ TreeBased.full x = .ok a ∧ a.shape = x.shape

/-- The function of the variables `p` (one list of coordinates per basis) with coefficients `a`: the sum over the multi-indices `idx`
of the coefficient times the product of the basis functions `idx[d]` of the variables `p[d]`. -/
def value [CommSemiring K] (a : Arr K) (bs : List (Basis K)) (p : List (List K)) : K :=
  sumBox a.shape (fun idx => a.get idx *
    ∏ d ∈ range bs.length, (bs.getD d ⟨0, 0, fun _ _ => 0⟩).fn (p.getD d []) (idx.getD d 0))

theorem Represents.order [CommSemiring K] {t : TVal K} {a : Arr K} (h : Represents t a) : t.order = a.shape.length := by
  cases t with
  | full b => rw [h.1]; rfl
  | tree x => rw [h.2.2]; simp [TVal.order, TBT.shape, TBT.order]

theorem rankShape_nil [CommSemiring K] {x : TBT K} (hx : WF x) {a : Arr K} (ha : TreeBased.full x = .ok a) (hs : a.shape = x.shape)
    {r : Nat} (hr : x.tree.root = .ok r) : rankShape x r = [] := by
  obtain ⟨V, hV⟩ := exists_value x hx.valid
  obtain ⟨a', a1, a2, _⟩ := full_on x hx hV.on hr
  rw [ha] at a1; cases a1
  rw [hs] at a2
  simpa using a2

/-- The product with matrices followed by the extraction of the diagonal, for both formats. -/
theorem evalDiagProduct_spec [CommSemiring K] (t : TVal K) (a : Arr K) (h : Represents t a) (ms : List (Arr K)) (n : Nat)
    (hms : List.Forall₂ (fun (M : Arr K) m => M.shape = [n, m]) ms a.shape) :
    ∃ y, t.evalDiagProduct ms = .ok y ∧ y.shape = [n] ∧ ∀ k, k < n → y.get [k] = sumBox a.shape (fun idx => a.get idx *
      (List.zipWith (fun (M : Arr K) j => M.get [k, j]) ms idx).prod) := by
  cases t with
  | full b =>
    obtain ⟨rfl, h0⟩ := h
    obtain ⟨y, y1, y2, y3⟩ := FullTensor.tensorMatrixProductEvalDiag_all b ms n h0 hms
    exact ⟨y, y1, y2, fun k _ => y3 k⟩
  | tree x =>
    obtain ⟨hx, hf, hs⟩ := h
    obtain ⟨r, hr, _⟩ := DimTree.root_ok hx.valid
    have hrs := rankShape_nil hx hf hs hr
    have hfg := List.forall₂_iff_get.1 hms
    have hso : x.shape.length = x.order := by simp [TBT.shape, TBT.order]
    have hlen : ms.length = x.order := by rw [hfg.1, hs, hso]
    obtain ⟨a', y, a1, y1, y2, y3⟩ := tensorMatrixProductEvalDiag_full x hx r hr ms n hlen (by
      intro d hd
      have := hfg.2 d (by omega) (by rw [hs]; omega)
      rw [List.getD_eq_getElem _ _ (by omega), List.getD_eq_getElem _ _ (by omega)]
      simp only [List.get_eq_getElem, hs] at this
      exact this)
    rw [hf] at a1; cases a1
    rw [hrs] at y2 y3
    refine ⟨y, y1, y2, fun k hk => ?_⟩
    have := y3 k [] hk (by simpa using InBox.nil)
    simp only [List.append_nil] at this
    rw [this, hs]

theorem hsplit_parts (nd : List Nat) (p : List (List K)) (h0 : nd ≠ []) (hp : p.map List.length = nd) :
    hsplit p.flatten 0 (cumsumNat nd).dropLast = p := by
  have hne : p ≠ [] := by rintro rfl; exact h0 (by simpa using hp.symm)
  have := hsplit_shift p hne []
  simp only [List.nil_append, List.length_nil] at this
  unfold cumsumNat
  rw [← hp]; exact this

/-- The product of a tensor with matrices followed by the extraction of the diagonal is the one of the dense tensor `a`. -/
def EvalDiagOk [CommSemiring K] (t : TVal K) (a : Arr K) : Prop :=
  ∀ (ms : List (Arr K)) (n : Nat), List.Forall₂ (fun (M : Arr K) m => M.shape = [n, m]) ms a.shape →
    ∃ y, t.evalDiagProduct ms = .ok y ∧ y.shape = [n] ∧ ∀ k, k < n → y.get [k] = sumBox a.shape (fun idx => a.get idx *
      (List.zipWith (fun (M : Arr K) j => M.get [k, j]) ms idx).prod)

/-- Evaluation of a functional tensor, in any format. -/
theorem eval_of [CommSemiring K] (t : TVal K) (a : Arr K) (h : EvalDiagOk t a) (ho : t.order = a.shape.length) (bs : List (Basis K))
    (hbs : bs ≠ []) (hc : a.shape = bs.map Basis.card) (pts : List (List (List K)))
    (hp : ∀ p ∈ pts, p.map List.length = bs.map Basis.ndim) :
    ∃ f y, FTn.mk' t bs = .ok f ∧ f.eval (pts.map List.flatten) = .ok y ∧ y.shape = [pts.length] ∧
      ∀ k, k < pts.length → y.get [k] = value a bs (pts.getD k []) := by
  have hl : a.shape.length = bs.length := by rw [hc]; simp
  have hnd : bs.map Basis.ndim ≠ [] := by simpa using hbs
  obtain ⟨y, y1, y2, y3⟩ := h (basesEvalAll bs (pts.map List.flatten)) pts.length (by
    rw [hc, List.forall₂_iff_get]
    refine ⟨by simp [basesEvalAll], fun d h1 h2 => ?_⟩
    simp [basesEvalAll, Basis.eval])
  refine ⟨⟨t, bs⟩, y, ?_, ?_, y2, fun k hk => ?_⟩
  · unfold FTn.mk'; rw [if_neg (by simp [ho, hl])]
  · unfold FTn.eval FTn.evalWith
    rw [if_pos (by simp [ho, hl])]
    exact y1
  · rw [y3 k hk]
    unfold value
    apply sumBox_congr
    intro idx hidx
    congr 1
    have hil : idx.length = bs.length := by rw [hidx.length_eq, hl]
    rw [Truncation.zipWith_prod (fun (M : Arr K) j => M.get [k, j]) ⟨[], fun _ => 0⟩ 0 _ _ bs.length (by simp [basesEvalAll]) hil]
    apply prod_congr rfl
    intro d hd
    have hd := mem_range.1 hd
    have hpk := hp (pts[k]) (List.getElem_mem hk)
    rw [List.getD_eq_getElem (basesEvalAll _ _) _ (by simpa [basesEvalAll] using hd)]
    simp only [basesEvalAll, List.getElem_mapIdx, Basis.eval, List.map_map]
    rw [List.getD_eq_getElem bs _ hd]
    show bs[d].fn (List.getD _ k []) _ = _
    rw [List.getD_eq_getElem _ _ (by simpa using hk), List.getElem_map, List.getD_eq_getElem pts _ hk]
    simp only [Function.comp]
    rw [hsplit_parts _ _ hnd hpk]
    rfl

/-- C95. `eval(x)` of a functional tensor, dense or tree-based, at the points whose variables are `pts`: the sum over the multi-indices
of the coefficient times the product of the values of the basis functions, each at its own variables. -/
theorem eval_spec [CommSemiring K] (t : TVal K) (a : Arr K) (h : Represents t a) (bs : List (Basis K))
    (hc : a.shape = bs.map Basis.card) (pts : List (List (List K))) (hp : ∀ p ∈ pts, p.map List.length = bs.map Basis.ndim) :
    ∃ f y, FTn.mk' t bs = .ok f ∧ f.eval (pts.map List.flatten) = .ok y ∧ y.shape = [pts.length] ∧
      ∀ k, k < pts.length → y.get [k] = value a bs (pts.getD k []) := by
  have ho := h.order
  have hbs : bs ≠ [] := by
    rintro rfl
    cases t with
    | full b => exact h.2 (by simpa [Arr.order] using hc)
    | tree x =>
      have := h.1.order
      have h2 : x.order = 0 := by rw [show x.order = (TVal.tree x).order from rfl, ho, hc]; rfl
      unfold TBT.order at h2
      omega
  exact eval_of t a (fun ms n hms => evalDiagProduct_spec t a h ms n hms) ho bs hbs hc pts hp

/-! ### products with matrices in all the dimensions -/

/-- `tensor.numpy()`: the dense array of a tensor. -/
def dense [CommSemiring K] : TVal K → Py (Arr K)
  | .full a => .ok a
  | .tree x => TreeBased.full x

theorem product_spec [CommSemiring K] (t : TVal K) (a : Arr K) (h : Represents t a) (ms : List (Arr K))
    (hms : List.Forall₂ (fun (M : Arr K) m => ∃ n, 0 < n ∧ M.shape = [n, m]) ms a.shape) :
    ∃ t' b, t.product ms (List.range a.shape.length) = .ok t' ∧ dense t' = .ok b ∧
      b.shape = ms.map (fun M => M.shape.getD 0 0) ∧
      ∀ idx, InBox b.shape idx → b.get idx = sumBox a.shape (fun s => a.get s *
        (List.zipWith (fun (M : Arr K) (p : Nat × Nat) => M.get [p.1, p.2]) ms (idx.zip s)).prod) := by
  have hlen := hms.length_eq
  have hall := Verif.tensorMatrixProduct_all a ms (hms.imp (fun M m ⟨n, _, hn⟩ => ⟨n, hn⟩))
  obtain ⟨b, b1, b2, b3⟩ := hall
  have b1' : FullTensor.tensorMatrixProduct a ms (some (List.range a.shape.length)) = .ok b := b1
  cases t with
  | full c =>
    obtain ⟨rfl, h0⟩ := h
    refine ⟨.full b, b, ?_, rfl, b2, b3⟩
    simp only [TVal.product, b1', bind, Except.bind]
  | tree x =>
    obtain ⟨hx, hf, hs⟩ := h
    have hso : x.shape.length = x.order := by simp [TBT.shape, TBT.order]
    have hfg := List.forall₂_iff_get.1 hms
    obtain ⟨x', y, z, z', p1, _, p2, p3, p4, p5⟩ := tensorMatrixProduct_full x hx ms (List.range a.shape.length) List.nodup_range
      (fun d hd => by rw [hs, hso] at hd; exact List.mem_range.1 hd) (by
        rw [List.forall₂_iff_get]
        refine ⟨by simpa using hlen, fun d h1 h2 => ?_⟩
        have hd : d < a.shape.length := by simpa using h2
        obtain ⟨n, hn, hM⟩ := hfg.2 d h1 hd
        refine ⟨n, hn, ?_⟩
        simp only [List.get_eq_getElem, List.getElem_range] at hM ⊢
        rw [hM, ← hs, List.getD_eq_getElem _ _ hd])
    rw [hf] at p2; cases p2
    rw [b1'] at p4; cases p4
    refine ⟨.tree x', z, ?_, p3, p5.1.trans b2, fun idx hidx => ?_⟩
    · simp only [TVal.product, p1, bind, Except.bind]
    · have hidx' := hidx
      rw [p5.1] at hidx'
      rw [p5.2 idx hidx, b3 idx hidx']

/-- C97. `eval_on_grid(x)` of a functional tensor, dense or tree-based: entry `idx` is the value of the function at the point of the
grid with subscripts `idx`. -/
theorem evalOnGrid_spec [CommSemiring K] (t : TVal K) (a : Arr K) (h : Represents t a) (bs : List (Basis K))
    (hc : a.shape = bs.map Basis.card) (grids : List (List (List K))) (hg : grids.length = bs.length) (hne : ∀ g ∈ grids, g ≠ []) :
    ∃ t' b, (⟨t, bs⟩ : FTn K).evalOnGrid grids = .ok t' ∧ dense t' = .ok b ∧ b.shape = grids.map List.length ∧
      ∀ idx, InBox b.shape idx → b.get idx = value a bs (List.zipWith (fun g k => g.getD k []) grids idx) := by
  have hl : a.shape.length = bs.length := by rw [hc]; simp
  obtain ⟨t', b, b1, b2, b3, b4⟩ := product_spec t a h (List.zipWith (fun b g => b.eval g) bs grids) (by
    rw [hc, List.forall₂_iff_get]
    refine ⟨by simp [hg], fun d h1 h2 => ?_⟩
    have hd : d < grids.length := by simp at h1; omega
    refine ⟨(grids[d]).length, List.length_pos_iff.2 (hne _ (List.getElem_mem hd)), ?_⟩
    simp [Basis.eval])
  have hsh : b.shape = grids.map List.length := by
    rw [b3]
    apply List.ext_getElem (by simp [hg])
    intro d h1 h2
    simp [Basis.eval]
  refine ⟨t', b, ?_, b2, hsh, fun idx hidx => ?_⟩
  · unfold FTn.evalOnGrid
    rw [← hl]; exact b1
  · rw [b4 idx hidx]
    unfold value
    have hil : idx.length = bs.length := by rw [hidx.length_eq, hsh]; simpa using hg
    apply sumBox_congr
    intro s hs
    have hsl : s.length = bs.length := by rw [hs.length_eq, hl]
    congr 1
    rw [Truncation.zipWith_prod (fun (M : Arr K) (p : Nat × Nat) => M.get [p.1, p.2]) ⟨[], fun _ => 0⟩ (0, 0) _ _ bs.length
      (by simp [hg]) (by simp [hil, hsl])]
    apply prod_congr rfl
    intro d hd
    have hd := mem_range.1 hd
    rw [List.getD_eq_getElem bs _ hd, List.getD_eq_getElem s _ (by omega), List.getD_eq_getElem (List.zipWith _ _ _) _ (by simp; omega),
      List.getD_eq_getElem (List.zipWith _ _ _) _ (by simp; omega), List.getD_eq_getElem (List.zip _ _) _ (by simp; omega),
      List.getElem_zipWith, List.getElem_zipWith, List.getElem_zip]
    rfl

/-! ### means -/

theorem mergeIdx_nil (ax : List Nat) (pos n : Nat) : mergeIdx ax [] pos n [] = List.replicate n 0 := by
  induction n generalizing pos with
  | zero => rfl
  | succ n ih =>
    rw [mergeIdx, List.replicate_succ]
    split
    · rw [ih]; simp
    · rw [List.tail_nil, ih]; rfl

theorem squeezeAll_ones [CommSemiring K] (a : Arr K) (h : ∀ d, d < a.order → a.shape.getD d 0 = 1) :
    (squeezeAll a).shape = [] ∧ (squeezeAll a).get [] = a.get (List.replicate a.order 0) := by
  have hr : (List.range a.order).filter (fun d => a.shape.getD d 0 == 1) = List.range a.order := by
    rw [List.filter_eq_self]
    intro d hd
    rw [h d (List.mem_range.1 hd)]; rfl
  unfold squeezeAll
  rw [hr]
  constructor
  · have := dropAxes_lead a.shape []
    rw [List.append_nil] at this
    exact this
  · show a.get (mergeIdx (List.range a.order) [] 0 a.order []) = _
    congr 1
    exact mergeIdx_nil _ _ _

theorem vectorProductAll_spec [CommSemiring K] (t : TVal K) (a : Arr K) (h : Represents t a) (vs : List (Arr K))
    (hvs : List.Forall₂ (fun (v : Arr K) m => v.shape = [m]) vs a.shape) :
    ∃ y, t.vectorProductAll vs = .ok y ∧ y.shape = [] ∧
      y.get [] = sumBox a.shape (fun s => a.get s * (List.zipWith (fun (v : Arr K) j => v.get [j]) vs s).prod) := by
  have hlen := hvs.length_eq
  have hvg := List.forall₂_iff_get.1 hvs
  obtain ⟨t', b, b1, b2, b3, b4⟩ := product_spec t a h (vs.map FullTensor.rowMatrix) (by
    rw [List.forall₂_map_left_iff]
    refine hvs.imp (fun v m hv => ⟨1, by omega, ?_⟩)
    simp [FullTensor.rowMatrix, reshapeF, hv])
  have hb1 : ∀ d, d < b.order → b.shape.getD d 0 = 1 := by
    intro d hd
    have hd' : d < vs.length := by simpa [Arr.order, b3] using hd
    rw [b3, List.getD_eq_getElem _ _ (by simpa using hd')]
    simp [FullTensor.rowMatrix, reshapeF]
  have hz0 : InBox b.shape (List.replicate b.order 0) := by
    rw [inBox_iff_getD]
    refine ⟨by simp [Arr.order], fun d hd => ?_⟩
    have hd : d < b.order := hd
    rw [hb1 d hd, List.getD_eq_getElem _ _ (by simpa using hd)]
    simp
  have hbo : b.order = vs.length := by simp [Arr.order, b3]
  have hval : b.get (List.replicate b.order 0) =
      sumBox a.shape (fun s => a.get s * (List.zipWith (fun (v : Arr K) j => v.get [j]) vs s).prod) := by
    rw [b4 _ hz0]
    apply sumBox_congr
    intro s hsb
    have hsl : s.length = vs.length := by rw [hsb.length_eq, hlen]
    congr 2
    apply List.ext_getElem (by simp [hsl, hbo])
    intro d h1 h2
    have hd : d < vs.length := by simp at h2; omega
    have hv := hvg.2 d hd (by omega)
    simp only [List.get_eq_getElem] at hv
    have hlt : s[d] < a.shape[d]'(by omega) := by
      have := ((inBox_iff_getD _ _).1 hsb).2 d (by omega)
      rwa [List.getD_eq_getElem _ _ (by omega), List.getD_eq_getElem _ _ (by omega)] at this
    simp only [List.getElem_zipWith, List.getElem_zip, List.getElem_map, List.getElem_replicate, FullTensor.rowMatrix, reshapeF, hv]
    congr 1
    simp [ravelF, unravelF, Nat.mod_eq_of_lt hlt]
  cases t with
  | full c =>
    obtain ⟨rfl, h0⟩ := h
    simp only [TVal.product] at b1
    cases hz : FullTensor.tensorMatrixProduct c (vs.map FullTensor.rowMatrix) (some (List.range c.shape.length)) with
    | error e => rw [hz] at b1; simp [bind, Except.bind] at b1
    | ok z =>
      rw [hz] at b1
      simp only [bind, Except.bind] at b1
      cases b1
      have hzb : z = b := by
        have : (.ok z : Py (Arr K)) = .ok b := b2
        cases this; rfl
      subst hzb
      have hzo : z.order = c.order := by rw [hbo, hlen]; rfl
      obtain ⟨y, y1, y2, y3⟩ := FullTensor.squeezeT_spec z (List.range c.order)
        (fun d hd => by rw [hzo]; exact List.mem_range.1 hd) (fun d hd => hb1 d (by rw [hzo]; exact List.mem_range.1 hd))
      have hoff : ∀ v : List Nat, v.length = c.order → entriesOff (List.range c.order) v = [] := by
        intro v hv
        rw [FullTensor.entriesOff_eq, ← dropAxes_eq, ← hv]
        have := dropAxes_lead v []
        rwa [List.append_nil] at this
      refine ⟨y, ?_, by rw [y2, hoff _ hzo], ?_⟩
      · simp only [TVal.vectorProductAll, FullTensor.tensorVectorProduct, Option.getD_some]
        have hz' : FullTensor.tensorMatrixProduct c (vs.map FullTensor.rowMatrix) (some (List.range c.order)) = .ok z := hz
        rw [if_neg (by simp [hlen, Arr.order]), hz']
        exact y1
      · rw [← hval, ← y3 _ hz0, hoff _ (by simp [hzo])]
  | tree x =>
    have hso : a.shape.length = x.order := by rw [h.2.2]; simp [TBT.shape, TBT.order]
    obtain ⟨q1, q2⟩ := squeezeAll_ones b hb1
    refine ⟨squeezeAll b, ?_, q1, ?_⟩
    · simp only [TVal.vectorProductAll]
      simp only [TVal.product, hso] at b1
      cases hz : tensorMatrixProduct x (vs.map FullTensor.rowMatrix) (some (List.range x.order)) with
      | error e => rw [hz] at b1; simp [bind, Except.bind] at b1
      | ok z =>
        rw [hz] at b1
        simp only [bind, Except.bind] at b1 ⊢
        cases b1
        have : TreeBased.full z = .ok b := b2
        rw [this]
    · rw [q2, hval]

/-- C96. `mean()` of a functional tensor, dense or tree-based: the sum over the multi-indices of the coefficient times the product of
the means of the basis functions. -/
theorem mean_spec [CommSemiring K] (t : TVal K) (a : Arr K) (h : Represents t a) (bs : List (Basis K))
    (hc : a.shape = bs.map Basis.card) (M : List (Nat → K)) (hM : M.length = bs.length) :
    ∃ y, (⟨t, bs⟩ : FTn K).mean M = .ok y ∧ y.shape = [] ∧
      y.get [] = sumBox a.shape (fun idx => a.get idx * ∏ d ∈ range bs.length, M.getD d (fun _ => 0) (idx.getD d 0)) := by
  have hl : a.shape.length = bs.length := by rw [hc]; simp
  obtain ⟨y, y1, y2, y3⟩ := vectorProductAll_spec t a h
    (List.zipWith (fun b m => (⟨[b.card], fun j => m (j.getD 0 0)⟩ : Arr K)) bs M) (by
      rw [hc, List.forall₂_iff_get]
      refine ⟨by simp [hM], fun d h1 h2 => ?_⟩
      simp)
  refine ⟨y, y1, y2, ?_⟩
  rw [y3]
  apply sumBox_congr
  intro s hs
  have hsl : s.length = bs.length := by rw [hs.length_eq, hl]
  congr 1
  rw [Truncation.zipWith_prod (fun (v : Arr K) j => v.get [j]) ⟨[], fun _ => 0⟩ 0 _ _ bs.length (by simp [hM]) hsl]
  apply prod_congr rfl
  intro d hd
  have hd := mem_range.1 hd
  rw [List.getD_eq_getElem (List.zipWith _ _ _) _ (by simp; omega), List.getElem_zipWith, List.getD_eq_getElem M _ (by omega)]
  rfl

/-- C96. When the means of the bases are their averages over weighted points, `mean()` is the average of the values of the function
over the tensor grid of these points with the products of the weights. -/
theorem mean_average [CommSemiring K] (t : TVal K) (a : Arr K) (h : Represents t a) (bs : List (Basis K))
    (hc : a.shape = bs.map Basis.card) (M : List (Nat → K)) (hM : M.length = bs.length)
    (P : Nat → Nat → List K) (w : Nat → Nat → K) (n : List Nat) (hn : n.length = bs.length)
    (hmean : ∀ d, d < bs.length → ∀ j, M.getD d (fun _ => 0) j =
      ∑ k ∈ range (n.getD d 0), w d k * (bs.getD d ⟨0, 0, fun _ _ => 0⟩).fn (P d k) j) :
    ∃ y, (⟨t, bs⟩ : FTn K).mean M = .ok y ∧ y.shape = [] ∧
      y.get [] = sumBox n (fun ks => (∏ d ∈ range bs.length, w d (ks.getD d 0)) *
        value a bs ((List.range bs.length).map (fun d => P d (ks.getD d 0)))) := by
  obtain ⟨y, y1, y2, y3⟩ := mean_spec t a h bs hc M hM
  refine ⟨y, y1, y2, ?_⟩
  rw [y3]
  have h1 : ∀ ks : List Nat, (∏ d ∈ range bs.length, w d (ks.getD d 0)) * value a bs ((List.range bs.length).map (fun d => P d (ks.getD d 0))) =
      sumBox a.shape (fun idx => a.get idx * ∏ d ∈ range bs.length, (w d (ks.getD d 0) *
        (bs.getD d ⟨0, 0, fun _ _ => 0⟩).fn (P d (ks.getD d 0)) (idx.getD d 0))) := by
    intro ks
    unfold value
    rw [← sumBox_mul_left]
    apply sumBox_congr
    intro idx _
    rw [prod_mul_distrib]
    have : ∏ d ∈ range bs.length, (bs.getD d ⟨0, 0, fun _ _ => 0⟩).fn
          (((List.range bs.length).map (fun d => P d (ks.getD d 0))).getD d []) (idx.getD d 0) =
        ∏ d ∈ range bs.length, (bs.getD d ⟨0, 0, fun _ _ => 0⟩).fn (P d (ks.getD d 0)) (idx.getD d 0) := by
      apply prod_congr rfl
      intro d hd
      have hd := mem_range.1 hd
      rw [List.getD_eq_getElem (List.map _ _) _ (by simpa using hd), List.getElem_map, List.getElem_range]
    rw [this]
    ring
  simp only [h1]
  rw [sumBox_comm]
  apply sumBox_congr
  intro idx _
  rw [sumBox_mul_left]
  congr 1
  have := Truncation.sumBox_prodF n (fun d k => w d k * (bs.getD d ⟨0, 0, fun _ _ => 0⟩).fn (P d k) (idx.getD d 0))
  rw [hn] at this
  rw [this]
  exact prod_congr rfl (fun d hd => hmean d (mem_range.1 hd) _)

/-- Non-vacuity: a tree-based tensor with three bases (monomials), the second one a function of two variables. -/
def exBases : List (Basis Int) := [⟨1, 3, fun x j => x.getD 0 0 ^ j⟩, ⟨2, 2, fun x j => (x.getD 0 0 * x.getD 1 0) ^ j⟩,
  ⟨1, 2, fun x j => x.getD 0 0 ^ j + 1⟩]

theorem exBases_card : exT.shape = exBases.map Basis.card := by decide +kernel

example : ∃ a, Represents (.tree exT) a ∧ a.shape = exBases.map Basis.card := by
  obtain ⟨r, hr, _⟩ := DimTree.root_ok exT_wf.valid
  obtain ⟨V, hV⟩ := exists_value exT exT_wf.valid
  obtain ⟨a, a1, a2, _⟩ := full_on exT exT_wf hV.on hr
  have hr1 : exT.tree.root = .ok 1 := by decide +kernel
  rw [hr] at hr1; cases hr1
  have : rankShape exT 1 = [] := by decide +kernel
  rw [this, List.append_nil] at a2
  exact ⟨a, ⟨exT_wf, a1, a2⟩, a2.trans exBases_card⟩

example : ∀ p ∈ [[[2], [3, 4], [5]], [[1], [1, -1], [0]]], (p : List (List Int)).map List.length = exBases.map Basis.ndim := by
  decide +kernel

/-- The means of the bases of the example over the points `1` and `2` with weights `3` and `4` in each variable. -/
example : ∀ d, d < exBases.length → ∀ j, ((List.range 3).map (fun d j => ∑ k ∈ range 2, (3 + k : Int) *
      (exBases.getD d ⟨0, 0, fun _ _ => 0⟩).fn [1 + k, 1 + k] j)).getD d (fun _ => 0) j =
    ∑ k ∈ range ([2, 2, 2].getD d 0), (3 + k : Int) * (exBases.getD d ⟨0, 0, fun _ _ => 0⟩).fn [1 + k, 1 + k] j := by
  intro d hd j
  have hd : d < 3 := hd
  interval_cases d <;> rfl

example : (match (⟨.tree exT, exBases⟩ : FTn Int).eval [[2, 3, 4, 5], [1, 1, -1, 0]] with
    | .ok y => some (y.shape, y.get [0], y.get [1]) | .error _ => none) =
  (match TreeBased.full exT with
    | .ok a => some ([2], value a exBases [[2], [3, 4], [5]], value a exBases [[1], [1, -1], [0]])
    | .error _ => none) := by decide +kernel

/-! ### partial evaluation -/

/-- C98 (partial: the first dimension, at two points or more). `eval(x, [0])`: the tensor of the result has the points on its first
axis and the remaining dimensions on the next ones, which `fdims` designates. -/
theorem evalPartial_first_partial [CommSemiring K] (a H : Arr K) (c n : Nat) (rest : List Nat) (hs : a.shape = c :: rest)
    (hH : H.shape = [n, c]) (hn : n ≠ 1) :
    ∃ y, evalPartial a [H] [0] = .ok (y, List.range' 1 rest.length) ∧ y.shape = n :: rest ∧
      ∀ k j, j.length = rest.length → y.get (k :: j) = ∑ i ∈ range c, a.get (i :: j) * H.get [k, i] := by
  have ho : a.order = rest.length + 1 := by simp [Arr.order, hs]
  obtain ⟨y, y1, y2, y3⟩ := FullTensor.tensorMatrixProductEvalDiag_spec a [H] [0] n (by simp) (by simp)
    (.cons ⟨by omega, by rw [hH, hs]; rfl⟩ .nil)
  have hoff : ∀ (v : Nat) (l : List Nat), entriesOff [0] (v :: l) = l := by
    intro v l
    rw [FullTensor.entriesOff_eq, ← dropAxes_eq]
    have := dropAxes_lead [v] l
    simpa using this
  have hrest : FullTensor.setdiffRange a.order [0] = List.range' 1 rest.length := by
    unfold FullTensor.setdiffRange
    rw [ho, List.range_succ_eq_map, List.filter_cons_of_neg (by simp), List.filter_eq_self.2 (by simp), range'_one]
  rw [hs, hoff] at y2
  have hold : FullTensor.setdiffRange a.order [] = List.range a.order := by
    unfold FullTensor.setdiffRange
    rw [List.filter_eq_self.2 (by simp)]
  refine ⟨y, ?_, y2, fun k j hj => ?_⟩
  · have e1 : (List.insertionSort (· ≤ ·) [0] : List Nat) = [0] := rfl
    have e2 : ([0] : List Nat).drop 2 = [] := rfl
    have e3 : ([0] : List Nat).getD 0 0 = 0 := rfl
    simp only [evalPartial, y1, bind, Except.bind, e1, e2, e3, y2, List.getD_cons_zero]
    rw [if_neg hn, hrest, hold]
    congr 2
    rw [List.length_range, ho, List.range_succ_eq_map, List.filter_cons_of_neg, range'_one, List.filter_eq_self.2]
    · intro q hq
      obtain ⟨v, hv, rfl⟩ := List.mem_map.1 hq
      have hv := List.mem_range.1 hv
      simp [hv]
    · simp
  · have := y3 k (0 :: j) (by simp [ho, hj])
    rw [hoff] at this
    rw [this, hs]
    show sumBox [c] _ = _
    rw [sumBox_singleton]
    refine sum_congr rfl (fun i _ => ?_)
    have hsub : subst (0 :: j) [0] [i] = i :: j := by
      have := subst_lead [0] [i] j rfl
      simpa using this
    rw [hsub]
    simp

/-- With another dimension, `fdims` of the result designates the axis of the points as a variable: evaluating in dimension 1 a tensor of
shape (2, 3, 2) at four points gives a tensor of shape (4, 2, 2) with `fdims = [0, 2]`. -/
theorem evalPartial_wrong : (match evalPartial (⟨[2, 3, 2], fun i => (i.sum : Int)⟩) [⟨[4, 3], fun i => (i.sum : Int)⟩] [1] with
    | .ok (y, fdims) => some (y.shape, fdims) | .error _ => none) = some ([4, 2, 2], [0, 2]) := by decide +kernel

end FunctionalTensor
end Verif
