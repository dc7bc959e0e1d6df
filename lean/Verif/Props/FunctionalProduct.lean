import Verif.Model.FunctionalProduct
import Verif.Props.FunctionalTensor
import Verif.Props.TreeKron
import Verif.Props.TreeArith
import Verif.Props.TreeMisc
import Verif.Props.ParamGradient

/-! # Products of functional tensors (C203, C204) -/

namespace Verif
namespace FunctionalTensor

open Arr TreeBased Bases Finset

variable {K : Type}

/-- The basis `k` has the functions `b_i c_j`, numbered as the entries of a Kronecker product of vectors: `i * card c + j`. -/
structure IsKron [Mul K] (b c k : Basis K) : Prop where
  ndim : k.ndim = b.ndim
  ndim' : c.ndim = b.ndim
  card : k.card = b.card * c.card
  fn : ∀ p i j, i < b.card → j < c.card → k.fn p (i * c.card + j) = b.fn p i * c.fn p j

/-- The `d`-th basis. -/
def nth [Zero K] (bs : List (Basis K)) (d : Nat) : Basis K := bs.getD d ⟨0, 0, fun _ _ => 0⟩

/-- The bases `kb` are the products of the bases `fb` and `gb`, dimension by dimension. -/
structure AreKron [CommSemiring K] (fb gb kb : List (Basis K)) : Prop where
  len : gb.length = fb.length
  len' : kb.length = fb.length
  basis : ∀ d, d < fb.length → IsKron (nth fb d) (nth gb d) (nth kb d)

/-- The tensors of the same format; for tree-based tensors, with the same tree and the same active nodes. -/
def Compatible : TVal K → TVal K → Prop
  | .full _, .full _ => True
  | .tree x, .tree y => y.tree = x.tree ∧ ∀ i, DimTree.IsNode x.tree i → y.active i = x.active i
  | _, _ => False

/-- The value at the variables `p` of the function number `e` of coefficients `a`: the sum over the multi-indices `idx` of the coefficient times
the product of the basis functions `idx[d]` of the variables `p[d]`. -/
def valueAt [CommSemiring K] (a : Arr K) (s : List Nat) (bs : List (Basis K)) (p : List (List K)) (e : List Nat) : K :=
  sumBox s (fun idx => a.get (idx ++ e) * ∏ d ∈ range bs.length, (nth bs d).fn (p.getD d []) (idx.getD d 0))

theorem value_eq_valueAt [CommSemiring K] (a : Arr K) (bs : List (Basis K)) (p : List (List K)) :
    value a bs p = valueAt a a.shape bs p [] := by
  unfold value valueAt nth
  simp only [List.append_nil]

/-- The value of a tensor on a box of products of sizes is the sum over the two boxes. -/
theorem sumBox_kron [AddCommMonoid K] (H : List Nat → List Nat → K) : ∀ (sx sy : List Nat), sx.length = sy.length →
    sumBox (List.zipWith (· * ·) sx sy) (fun idx => H (List.zipWith (· / ·) idx sy) (List.zipWith (· % ·) idx sy)) =
      sumBox sx (fun i => sumBox sy (fun j => H i j)) := by
  intro sx
  induction sx generalizing H with
  | nil =>
    intro sy hl
    cases sy with
    | nil => rfl
    | cons b sy => simp at hl
  | cons a sx ih =>
    intro sy hl
    cases sy with
    | nil => simp at hl
    | cons b sy =>
      have hl : sx.length = sy.length := by simpa using hl
      have key : ∀ (a : Nat) (F : Nat → Nat → K), ∑ t ∈ range (a * b), F (t / b) (t % b) = ∑ i ∈ range a, ∑ j ∈ range b, F i j := by
        intro a F
        induction a with
        | zero => simp
        | succ a iha =>
          rw [Nat.succ_mul, sum_range_add, iha, sum_range_succ]
          congr 1
          refine sum_congr rfl (fun j hj => ?_)
          have hj := mem_range.1 hj
          have hb : 0 < b := by omega
          rw [mul_comm a b, Nat.mul_add_div hb, Nat.div_eq_of_lt hj, Nat.mul_add_mod, Nat.mod_eq_of_lt hj, add_zero]
      simp only [List.zipWith_cons_cons, sumBox]
      rw [key a (fun i j => sumBox (List.zipWith (· * ·) sx sy) (fun idx =>
        H (i :: List.zipWith (· / ·) idx sy) (j :: List.zipWith (· % ·) idx sy)))]
      refine sum_congr rfl (fun i _ => ?_)
      have e : ∀ j, sumBox (List.zipWith (· * ·) sx sy) (fun idx =>
          H (i :: List.zipWith (· / ·) idx sy) (j :: List.zipWith (· % ·) idx sy)) =
          sumBox sx (fun p => sumBox sy (fun q => H (i :: p) (j :: q))) := fun j => ih (fun p q => H (i :: p) (j :: q)) sy hl
      simp only [e]
      have := sumBox_comm [b] sx (fun j p => sumBox sy (fun q => H (i :: p) (j.getD 0 0 :: q)))
      rw [sumBox_singleton] at this
      simp only [List.getD_cons_zero] at this
      rw [this]
      refine sumBox_congr (fun p _ => ?_)
      rw [sumBox_singleton]
      simp only [List.getD_cons_zero]

/-- The product of two values is the value of the Kronecker product. -/
theorem valueAt_kron [CommSemiring K] {fb gb kb : List (Basis K)} (hk : AreKron fb gb kb) (a b w : Arr K) (p : List (List K))
    (ea eb ew : List Nat) (hw : ∀ idx, InBox (kb.map Basis.card) idx → w.get (idx ++ ew) =
      a.get (List.zipWith (· / ·) idx (gb.map Basis.card) ++ ea) * b.get (List.zipWith (· % ·) idx (gb.map Basis.card) ++ eb)) :
    valueAt w (kb.map Basis.card) kb p ew = valueAt a (fb.map Basis.card) fb p ea * valueAt b (gb.map Basis.card) gb p eb := by
  have hl : (fb.map Basis.card).length = (gb.map Basis.card).length := by simp [hk.len]
  have hcard : kb.map Basis.card = List.zipWith (· * ·) (fb.map Basis.card) (gb.map Basis.card) := by
    refine List.ext_getElem (by simp [hk.len, hk.len']) (fun d h1 h2 => ?_)
    have hd : d < fb.length := by rw [← hk.len']; simpa using h1
    have := (hk.basis d hd).card
    unfold nth at this
    rw [List.getD_eq_getElem _ _ (by rw [hk.len']; exact hd), List.getD_eq_getElem _ _ hd, List.getD_eq_getElem _ _ (by rw [hk.len]; exact hd)]
      at this
    simpa using this
  have hterm : ∀ idx, InBox (kb.map Basis.card) idx →
      (∏ d ∈ range kb.length, (nth kb d).fn (p.getD d []) (idx.getD d 0)) =
      (∏ d ∈ range fb.length, (nth fb d).fn (p.getD d []) ((List.zipWith (· / ·) idx (gb.map Basis.card)).getD d 0)) *
      ∏ d ∈ range gb.length, (nth gb d).fn (p.getD d []) ((List.zipWith (· % ·) idx (gb.map Basis.card)).getD d 0) := by
    intro idx hidx
    have hil : idx.length = fb.length := by rw [hidx.length_eq]; simp [hk.len']
    rw [hk.len', hk.len, ← prod_mul_distrib]
    refine prod_congr rfl (fun d hd => ?_)
    have hd := mem_range.1 hd
    have hg : d < gb.length := by rw [hk.len]; exact hd
    have hkd : d < kb.length := by rw [hk.len']; exact hd
    obtain ⟨_, _, k3, k4⟩ := hk.basis d hd
    have hlt : idx.getD d 0 < (nth kb d).card := by
      have := (inBox_iff_getD _ _).1 hidx |>.2 d (by simpa using hkd)
      unfold nth
      rw [List.getD_eq_getElem kb _ hkd]
      rw [List.getD_eq_getElem (kb.map Basis.card) _ (by simpa using hkd), List.getElem_map] at this
      exact this
    have hnth : (nth gb d).card = gb[d].card := by unfold nth; rw [List.getD_eq_getElem gb _ hg]
    rw [k3] at hlt
    have hpos : 0 < (nth gb d).card := by
      rcases Nat.eq_zero_or_pos (nth gb d).card with h0 | h0
      · rw [h0] at hlt; omega
      · exact h0
    have e1 : (List.zipWith (· / ·) idx (gb.map Basis.card)).getD d 0 = idx.getD d 0 / (nth gb d).card := by
      rw [List.getD_eq_getElem _ _ (by simp; omega), List.getElem_zipWith, List.getD_eq_getElem _ _ (by omega), hnth]
      simp
    have e2 : (List.zipWith (· % ·) idx (gb.map Basis.card)).getD d 0 = idx.getD d 0 % (nth gb d).card := by
      rw [List.getD_eq_getElem _ _ (by simp; omega), List.getElem_zipWith, List.getD_eq_getElem _ _ (by omega), hnth]
      simp
    rw [e1, e2, ← k4 _ _ _ ((Nat.div_lt_iff_lt_mul hpos).2 hlt) (Nat.mod_lt _ hpos), mul_comm (idx.getD d 0 / _), Nat.div_add_mod]
  unfold valueAt
  rw [sumBox_congr (fun idx hidx => by rw [hw idx hidx, hterm idx hidx])]
  rw [hcard]
  have := sumBox_kron (fun i j => a.get (i ++ ea) * b.get (j ++ eb) *
    ((∏ d ∈ range fb.length, (nth fb d).fn (p.getD d []) (i.getD d 0)) *
      ∏ d ∈ range gb.length, (nth gb d).fn (p.getD d []) (j.getD d 0))) (fb.map Basis.card) (gb.map Basis.card) hl
  rw [this, ← sumBox_mul_right]
  refine sumBox_congr (fun i _ => ?_)
  rw [← sumBox_mul_left]
  refine sumBox_congr (fun j _ => ?_)
  rw [mul_mul_mul_comm]

theorem valueAt_congr [CommSemiring K] {a b : Arr K} {s : List Nat} (bs : List (Basis K)) (p : List (List K)) (e : List Nat)
    (h : ∀ idx, InBox s idx → a.get (idx ++ e) = b.get (idx ++ e)) : valueAt a s bs p e = valueAt b s bs p e := by
  unfold valueAt
  exact sumBox_congr (fun idx hi => by rw [h idx hi])

theorem ndims_kron [CommSemiring K] {fb gb kb : List (Basis K)} (hk : AreKron fb gb kb) :
    kb.map Basis.ndim = fb.map Basis.ndim ∧ gb.map Basis.ndim = fb.map Basis.ndim := by
  have key : ∀ d, d < fb.length → ∀ (h1 : d < kb.length) (h2 : d < gb.length) (h3 : d < fb.length),
      kb[d].ndim = fb[d].ndim ∧ gb[d].ndim = fb[d].ndim := by
    intro d hd h1 h2 h3
    obtain ⟨k1, k2, _, _⟩ := hk.basis d hd
    unfold nth at k1 k2
    rw [List.getD_eq_getElem _ _ h1, List.getD_eq_getElem _ _ h3] at k1
    rw [List.getD_eq_getElem _ _ h2, List.getD_eq_getElem _ _ h3] at k2
    exact ⟨k1, k2⟩
  constructor
  · refine List.ext_getElem (by simp [hk.len']) (fun d h1 h2 => ?_)
    have hd : d < fb.length := by simpa using h2
    simpa using (key d hd (by simpa using h1) (by rw [hk.len]; exact hd) hd).1
  · refine List.ext_getElem (by simp [hk.len]) (fun d h1 h2 => ?_)
    have hd : d < fb.length := by simpa using h2
    simpa using (key d hd (by rw [hk.len']; exact hd) (by simpa using h1) hd).2

/-- `eval(x)` of a functional tensor in tree-based format, with any outputs. -/
theorem eval_tree [CommSemiring K] (x : TBT K) (hx : WF x) (r : Nat) (hr : x.tree.root = .ok r) (bs : List (Basis K))
    (hc : x.shape = bs.map Basis.card) (pts : List (List (List K))) (hp : ∀ p ∈ pts, p.map List.length = bs.map Basis.ndim) :
    ∃ a y, TreeBased.full x = .ok a ∧ (⟨.tree x, bs⟩ : FTn K).eval (pts.map List.flatten) = .ok y ∧ y.shape = pts.length :: rankShape x r ∧
      ∀ k e, k < pts.length → InBox (rankShape x r) e → y.get (k :: e) = valueAt a (bs.map Basis.card) bs (pts.getD k []) e := by
  have hso : x.shape.length = x.order := by simp [TBT.shape, TBT.order]
  have hbl : bs.length = x.order := by rw [← hso, hc]; simp
  have hbs : bs ≠ [] := by
    rintro rfl
    have := hx.order
    unfold TBT.order at hbl
    simp at hbl
    omega
  have hnd : bs.map Basis.ndim ≠ [] := by simpa using hbs
  obtain ⟨a, y, a1, y1, y2, y3⟩ := tensorMatrixProductEvalDiag_full x hx r hr (basesEvalAll bs (pts.map List.flatten)) pts.length
    (by simp [basesEvalAll, hbl]) (by
      intro d hd
      rw [List.getD_eq_getElem _ _ (by simp [basesEvalAll]; omega), hc, List.getD_eq_getElem _ _ (by simp; omega)]
      simp [basesEvalAll, Basis.eval])
  refine ⟨a, y, a1, ?_, y2, ?_⟩
  · unfold FTn.eval FTn.evalWith
    rw [if_pos (by show bs.length = x.order; exact hbl)]
    exact y1
  · intro k e hk he
    rw [y3 k e hk he, hc]
    unfold valueAt
    apply sumBox_congr
    intro idx hidx
    congr 1
    have hil : idx.length = bs.length := by rw [hidx.length_eq]; simp
    rw [Truncation.zipWith_prod (fun (M : Arr K) j => M.get [k, j]) ⟨[], fun _ => 0⟩ 0 _ _ bs.length (by simp [basesEvalAll]) hil]
    apply prod_congr rfl
    intro d hd
    have hd := mem_range.1 hd
    have hpk := hp (pts[k]) (List.getElem_mem hk)
    unfold nth
    rw [List.getD_eq_getElem (basesEvalAll _ _) _ (by simpa [basesEvalAll] using hd)]
    simp only [basesEvalAll, List.getElem_mapIdx, Basis.eval, List.map_map]
    rw [List.getD_eq_getElem bs _ hd]
    show bs[d].fn (List.getD _ k []) _ = _
    rw [List.getD_eq_getElem _ _ (by simpa using hk), List.getElem_map, List.getD_eq_getElem pts _ hk]
    simp only [Function.comp]
    rw [hsplit_parts _ _ hnd hpk]
    rfl

/-- C203, what is proved: for one output, and if the bases `kb` are the products of the bases in the order of the Kronecker product of tensors,
the value of `f * g` is the product of the values of `f` and `g`. Missing: no basis of the library has a `kron` that returns such bases
(`SubBasis.polyKron_wrong` for polynomials), and with several outputs the result is wrong (`mul_outputs_wrong`). -/
theorem mul_partial [CommSemiring K] (f g : FTn K) (a b : Arr K) (ha : Represents f.tensor a) (hb : Represents g.tensor b)
    (hfc : a.shape = f.bases.map Basis.card) (hgc : b.shape = g.bases.map Basis.card) (hcomp : Compatible f.tensor g.tensor)
    (kb : List (Basis K)) (hk : AreKron f.bases g.bases kb) (pts : List (List (List K)))
    (hp : ∀ p ∈ pts, p.map List.length = f.bases.map Basis.ndim) :
    ∃ h yf yg y, f.mul g kb = .ok h ∧ f.eval (pts.map List.flatten) = .ok yf ∧ g.eval (pts.map List.flatten) = .ok yg ∧
      h.eval (pts.map List.flatten) = .ok y ∧ y.shape = [pts.length] ∧
      ∀ k, k < pts.length → y.get [k] = yf.get [k] * yg.get [k] := by
  obtain ⟨n1, n2⟩ := ndims_kron hk
  have hpg : ∀ p ∈ pts, p.map List.length = g.bases.map Basis.ndim := fun p h => by rw [n2]; exact hp p h
  have hpk : ∀ p ∈ pts, p.map List.length = kb.map Basis.ndim := fun p h => by rw [n1]; exact hp p h
  obtain ⟨f', yf, f1, f2, f3, f4⟩ := eval_spec f.tensor a ha f.bases hfc pts hp
  obtain ⟨g', yg, g1, g2, g3, g4⟩ := eval_spec g.tensor b hb g.bases hgc pts hpg
  have hmk : ∀ (t : TVal K) (bs : List (Basis K)) f', FTn.mk' t bs = .ok f' → f' = ⟨t, bs⟩ := by
    intro t bs f' h
    unfold FTn.mk' at h
    split_ifs at h
    cases h; rfl
  rw [hmk _ _ _ f1] at f2
  rw [hmk _ _ _ g1] at g2
  have hal : a.shape.length = b.shape.length := by rw [hfc, hgc]; simp [hk.len]
  obtain ⟨v, v1, v2, v3⟩ := FullTensor.kron_spec a b hal
  have hvs : v.shape = kb.map Basis.card := by
    rw [v2, hfc, hgc]
    refine List.ext_getElem (by simp [hk.len, hk.len']) (fun d h1 h2 => ?_)
    have hd : d < f.bases.length := by rw [← hk.len']; simpa using h2
    have := (hk.basis d hd).card
    unfold nth at this
    rw [List.getD_eq_getElem _ _ (by rw [hk.len']; exact hd), List.getD_eq_getElem _ _ hd, List.getD_eq_getElem _ _ (by rw [hk.len]; exact hd)]
      at this
    simpa using this.symm
  have hval : ∀ w : Arr K, w ≃ₐ v → ∀ p, value w kb p = value a f.bases p * value b g.bases p := by
    intro w hw p
    rw [value_eq_valueAt, value_eq_valueAt, value_eq_valueAt, hw.1, hvs, hfc, hgc]
    refine valueAt_kron hk a b w p [] [] [] (fun idx hidx => ?_)
    simp only [List.append_nil]
    rw [hw.2 idx (by rw [hw.1, hvs]; exact hidx), v3 idx (by rw [hvs]; exact hidx), hgc]
  -- the tensor of the product
  obtain ⟨t, w, m1, m2, m3⟩ : ∃ t w, f.mul g kb = .ok ⟨t, kb⟩ ∧ Represents t w ∧ w ≃ₐ v := by
    obtain ⟨ft, fb⟩ := f
    obtain ⟨gt, gb⟩ := g
    cases ft with
    | full a' =>
      cases gt with
      | full b' =>
        obtain ⟨rfl, ha0⟩ := ha
        obtain ⟨rfl, hb0⟩ := hb
        have hvo : v.order = kb.length := by show v.shape.length = _; rw [hvs]; simp
        refine ⟨.full v, v, ?_, ⟨rfl, ?_⟩, ⟨rfl, fun _ _ => rfl⟩⟩
        · simp only [FTn.mul, TVal.kron, v1, bind, Except.bind]
          unfold FTn.mk'
          rw [if_neg (by show ¬ (v.order ≠ kb.length); simp [hvo])]
        · rw [hvo, hk.len']
          have : a'.order = fb.length := by show a'.shape.length = _; rw [hfc]; simp
          rw [← this]; exact ha0
      | tree y => exact absurd hcomp (by simp [Compatible])
    | tree x =>
      cases gt with
      | full b' => exact absurd hcomp (by simp [Compatible])
      | tree y =>
        obtain ⟨hx, hfa, hxs⟩ := ha
        obtain ⟨hy, hfb, hys⟩ := hb
        obtain ⟨r, hr, hroot⟩ := DimTree.root_ok hx.valid
        have hyr : y.tree.root = .ok r := by rw [hcomp.1]; exact hr
        have e1 := rankShape_nil hx hfa hxs hr
        have e2 := rankShape_nil hy hfb hys hyr
        have hpar : Parallel x y := ⟨hcomp.1, hcomp.2, fun r' hr' => by
          rw [DimTree.root_unique hx.valid hr' hroot, e1, e2]⟩
        obtain ⟨z, a', b', w, k1, k2, k3, k4, k5, ⟨v', k6, k7⟩, k8, k9, k10, k11⟩ := kron_full x y hx hy hpar
        rw [hfa] at k3; cases k3
        rw [hfb] at k4; cases k4
        rw [v1] at k6; cases k6
        have hrz : rankShape z r = [] := by rw [k10 r hroot, e1]; rfl
        have hzroot : DimTree.IsRoot z.tree r := by rw [k8]; exact hroot
        have hrk : z.rank r = 1 := by rw [rank_root_eq k2 r hzroot, hrz]; rfl
        have hzsh : z.shape = kb.map Basis.card := by
          rw [k9, ← hxs, ← hys, ← v2, hvs]
        have hzo : (TVal.tree z).order = kb.length := by
          show z.order = _
          have : z.shape.length = z.order := by simp [TBT.shape, TBT.order]
          rw [← this, hzsh]; simp
        refine ⟨.tree z, w, ?_, ⟨k2, k5, by rw [k7.1, hvs, hzsh]⟩, k7⟩
        simp only [FTn.mul, TVal.kron, k1, bind, Except.bind]
        unfold FTn.mk'
        rw [if_neg (by simp [hzo])]
        simp only [selectOutputs, k8, hr, hyr, bind, Except.bind]
        rw [if_neg (by rw [hrk]; omega)]
  obtain ⟨h', y, h1, h2, h3, h4⟩ := eval_spec t w m2 kb (by rw [m3.1, hvs]) pts hpk
  rw [hmk _ _ _ h1] at h2
  exact ⟨⟨t, kb⟩, yf, yg, y, m1, f2, g2, h2, h3, fun k hkk => by rw [h4 k hkk, f4 k hkk, g4 k hkk, hval w m3]⟩

/-- The Kronecker product of two tree-based tensors with outputs. -/
theorem kron_outputs [CommSemiring K] (x y : TBT K) (hx : WF x) (hy : WF y) (r : Nat) (hr : x.tree.root = .ok r)
    (hcomp : Compatible (.tree x) (.tree y)) (n m : Nat) (hn : rankShape x r = [n]) (hm : rankShape y r = [m]) :
    ∃ z a b w, TreeBased.kron x y = .ok z ∧ WF z ∧ z.tree = x.tree ∧ rankShape z r = [n * m] ∧ x.rank r = n ∧ y.rank r = m ∧ z.rank r = n * m ∧
      TreeBased.full x = .ok a ∧ TreeBased.full y = .ok b ∧ TreeBased.full z = .ok w ∧ z.shape = List.zipWith (· * ·) x.shape y.shape ∧
      ∀ idx e, InBox z.shape idx → e < n * m → w.get (idx ++ [e]) =
        a.get (List.zipWith (· / ·) idx y.shape ++ [e / m]) * b.get (List.zipWith (· % ·) idx y.shape ++ [e % m]) := by
  obtain ⟨r', hr', hroot⟩ := DimTree.root_ok hx.valid
  rw [hr] at hr'; cases hr'
  have hyroot : DimTree.IsRoot y.tree r := by rw [hcomp.1]; exact hroot
  have hyr : y.tree.root = .ok r := by rw [hcomp.1]; exact hr
  have hpar : Parallel x y := ⟨hcomp.1, hcomp.2, fun r' hr' => by
    rw [DimTree.root_unique hx.valid hr' hroot, hn, hm]; rfl⟩
  obtain ⟨z, a, b, w, k1, k2, k3, k4, k5, ⟨v, k6, k7⟩, k8, k9, k10, k11⟩ := kron_full x y hx hy hpar
  have hrz : rankShape z r = [n * m] := by rw [k10 r hroot, hn, hm]; rfl
  have hzroot : DimTree.IsRoot z.tree r := by rw [k8]; exact hroot
  obtain ⟨V, hV⟩ := exists_value x hx.valid
  obtain ⟨a', a1, a2, _⟩ := full_on x hx hV.on hr
  rw [k3] at a1; cases a1
  obtain ⟨V', hV'⟩ := exists_value y hy.valid
  obtain ⟨b', b1, b2, _⟩ := full_on y hy hV'.on hyr
  rw [k4] at b1; cases b1
  have hxo : x.shape.length = y.shape.length := by
    simp [TBT.shape, hcomp.1]
  rw [hn] at a2
  rw [hm] at b2
  obtain ⟨v', v1, v2, v3⟩ := FullTensor.kron_spec a b (by show a.shape.length = b.shape.length; rw [a2, b2]; simp [hxo])
  rw [k6] at v1; cases v1
  have hvs : v.shape = z.shape ++ [n * m] := by
    rw [v2, a2, b2, k9, List.zipWith_append (by simp [hxo])]; rfl
  refine ⟨z, a, b, w, k1, k2, k8, hrz, by rw [rank_root_eq hx r hroot, hn]; rfl, by rw [rank_root_eq hy r hyroot, hm]; rfl,
    by rw [rank_root_eq k2 r hzroot, hrz]; rfl, k3, k4, k5, k9, ?_⟩
  intro idx e hidx he
  have hil : idx.length = z.shape.length := hidx.length_eq
  have hzl : z.shape.length = y.shape.length := by rw [k9]; simp [hxo]
  have hb : InBox v.shape (idx ++ [e]) := by rw [hvs]; exact (inBox_append hil).2 ⟨hidx, inBox_one he⟩
  rw [k7.2 _ (by rw [k7.1]; exact hb), v3 _ hb, b2, List.zipWith_append (by omega), List.zipWith_append (by omega)]
  rfl

/-- C203 is false of the code with several outputs: the output number `e` of `f * g` is the product of the output number `e` of `f` and of the
first output of `g`. -/
theorem mul_outputs_wrong [CommSemiring K] (x y : TBT K) (fb gb : List (Basis K)) (hx : WF x) (hy : WF y) (r : Nat)
    (hr : x.tree.root = .ok r) (hcomp : Compatible (.tree x) (.tree y)) (n : Nat) (hn : rankShape x r = [n]) (hm : rankShape y r = [n])
    (h1 : 1 < n) (hfc : x.shape = fb.map Basis.card) (hgc : y.shape = gb.map Basis.card)
    (kb : List (Basis K)) (hk : AreKron fb gb kb) (pts : List (List (List K)))
    (hp : ∀ p ∈ pts, p.map List.length = fb.map Basis.ndim) :
    ∃ h yf yg v, FTn.mul ⟨.tree x, fb⟩ ⟨.tree y, gb⟩ kb = .ok h ∧ (⟨.tree x, fb⟩ : FTn K).eval (pts.map List.flatten) = .ok yf ∧
      (⟨.tree y, gb⟩ : FTn K).eval (pts.map List.flatten) = .ok yg ∧
      h.eval (pts.map List.flatten) = .ok v ∧ v.shape = [pts.length, n] ∧
      ∀ k e, k < pts.length → e < n → v.get [k, e] = yf.get [k, e] * yg.get [k, 0] := by
  obtain ⟨n1, n2⟩ := ndims_kron hk
  obtain ⟨z, a, b, w, k1, k2, k3, k4, k5, k6, k7, k8, k9, k10, k11, k12⟩ := kron_outputs x y hx hy r hr hcomp n n hn hm
  have hyr : y.tree.root = .ok r := by rw [hcomp.1]; exact hr
  have hzr : z.tree.root = .ok r := by rw [k3]; exact hr
  obtain ⟨r', hr', hzroot⟩ := DimTree.root_ok k2.valid
  rw [hzr] at hr'; cases hr'
  have hrl := k2.root_internal hzroot
  have hzs : z.shape = kb.map Basis.card := by
    rw [k11, hfc, hgc]
    refine List.ext_getElem (by simp [hk.len, hk.len']) (fun d h1 h2 => ?_)
    have hd : d < fb.length := by rw [← hk.len']; simpa using h2
    have := (hk.basis d hd).card
    unfold nth at this
    rw [List.getD_eq_getElem _ _ (by rw [hk.len']; exact hd), List.getD_eq_getElem _ _ hd, List.getD_eq_getElem _ _ (by rw [hk.len]; exact hd)]
      at this
    simpa using this.symm
  have hzo : z.order = kb.length := by
    have : z.shape.length = z.order := by simp [TBT.shape, TBT.order]
    rw [← this, hzs]; simp
  set A := z.tensors r with hA
  set pre := (z.tree.children r).map (childSize z) with hpre
  have hash : A.shape = pre ++ [n * n] := by rw [hA, (k2.node r hzroot.1 hrl).2.1, k4]
  have hAo : A.order = pre.length + 1 := by show A.shape.length = _; rw [hash]; simp
  have hsel : (List.replicate A.order none).set (A.order - 1) (some (outputIndices n)) =
      List.replicate pre.length none ++ [some (outputIndices n)] := by
    rw [hAo, List.replicate_succ', Nat.add_sub_cancel, List.set_append_right _ _ (by simp)]
    simp
  have hlt : ∀ e, e < n → e * n < n * n := fun e he => Nat.mul_lt_mul_of_pos_right he (by omega)
  obtain ⟨t, t1, t2, t3⟩ := FullTensor.subTensor_spec A (List.replicate pre.length none ++ [some (outputIndices n)]) (by
    rw [hash]
    refine List.rel_append (pickOk_none pre) (.cons ?_ .nil)
    intro l hl i hi
    cases hl
    simp only [outputIndices, List.mem_map, List.mem_range] at hi
    obtain ⟨k, hk, rfl⟩ := hi
    exact hlt k hk)
  have ht2 : t.shape = pre ++ [n] := by
    rw [t2, hash, List.zipWith_append (by simp), pickSize_none]
    simp [FullTensor.pickSize, outputIndices]
  have ht3 : ∀ u k, InBox pre u → k < n →
      t.get (u ++ [k]) = ∑ l ∈ range (n * n), (if l = k * n then 1 else 0) * A.get (u ++ [l]) := by
    intro u k hu hkn
    have hul := hu.length_eq
    rw [t3 (u ++ [k]) (by rw [ht2]; exact (inBox_append hul).2 ⟨hu, inBox_one hkn⟩), List.zipWith_append (by simp [hul]), ← hul, pick_none]
    rw [sum_eq_single (k * n) (fun l _ hl => by rw [if_neg hl, zero_mul]) (fun h => absurd (mem_range.2 (hlt k hkn)) h), if_pos rfl, one_mul]
    congr 2
    simp only [List.zipWith_cons_cons, List.zipWith_nil_left, FullTensor.pick, outputIndices]
    rw [List.getD_eq_getElem _ _ (by simpa using hkn)]
    simp
  obtain ⟨w', w2, e1, e2, e3, e4, e5, e6, e7, e8⟩ := root_mix z k2 r hzr (n * n) n k4 (by omega) (fun k l => if l = k * n then 1 else 0) t ht2 ht3
  rw [k10] at e5; cases e5
  have hf := eval_tree x hx r hr fb hfc pts hp
  have hg := eval_tree y hy r hyr gb hgc pts (fun p h => by rw [n2]; exact hp p h)
  obtain ⟨a', yf, f0, f1, f2, f3⟩ := hf
  rw [k8] at f0; cases f0
  obtain ⟨b', yg, g0, g1, g2, g3⟩ := hg
  rw [k9] at g0; cases g0
  have hsh' : (⟨z.tree, upd z.tensors r t⟩ : TBT K).shape = kb.map Basis.card := by rw [e4, hzs]
  obtain ⟨w2', v, h0, h2, h3, h4⟩ := eval_tree ⟨z.tree, upd z.tensors r t⟩ e1 r hzr kb hsh' pts (fun p h => by rw [n1]; exact hp p h)
  rw [e6] at h0; cases h0
  rw [e3] at h3 h4
  rw [hn] at f3
  rw [hm] at g3
  refine ⟨⟨.tree ⟨z.tree, upd z.tensors r t⟩, kb⟩, yf, yg, v, ?_, f1, g1, h2, h3, ?_⟩
  · simp only [FTn.mul, TVal.kron, k1, bind, Except.bind]
    unfold FTn.mk'
    rw [if_neg (by show ¬ (z.order ≠ kb.length); simp [hzo])]
    simp only [selectOutputs, hzr, hyr, bind, Except.bind]
    rw [if_pos (by rw [k7]; exact Nat.one_lt_mul_iff.2 ⟨by omega, by omega, .inl h1⟩), if_neg (by rw [k5, k6]; simp), k5, ← hA, hsel, t1]
  · intro k e hkk he
    rw [h4 k [e] hkk (inBox_one he), f3 k [e] hkk (inBox_one he), g3 k [0] hkk (inBox_one (by omega))]
    refine valueAt_kron hk a b w2 _ [e] [0] [e] (fun idx hidx => ?_)
    have hi : InBox z.shape idx := by rw [hzs]; exact hidx
    rw [e8 idx e hi he, sum_eq_single (e * n) (fun l _ hl => by rw [if_neg hl, zero_mul])
      (fun h => absurd (mem_range.2 (hlt e he)) h), if_pos rfl, one_mul, k12 idx _ hi (hlt e he), hgc,
      Nat.mul_div_cancel _ (by omega), Nat.mul_mod_left]

/-- Different numbers of outputs are refused. -/
theorem mul_ranks_refused [CommSemiring K] (x y : TBT K) (fb gb kb : List (Basis K)) (hx : WF x) (hy : WF y) (r : Nat)
    (hr : x.tree.root = .ok r) (hcomp : Compatible (.tree x) (.tree y)) (n m : Nat) (hn : rankShape x r = [n]) (hm : rankShape y r = [m])
    (h1 : 1 < n * m) (hnm : n ≠ m) (hkb : kb.length = x.order) :
    FTn.mul ⟨.tree x, fb⟩ ⟨.tree y, gb⟩ kb = .error .valueError := by
  obtain ⟨z, a, b, w, k1, k2, k3, k4, k5, k6, k7, _⟩ := kron_outputs x y hx hy r hr hcomp n m hn hm
  have hyr : y.tree.root = .ok r := by rw [hcomp.1]; exact hr
  have hzo : z.order = kb.length := by rw [hkb]; unfold TBT.order; rw [k3]
  simp only [FTn.mul, TVal.kron, k1, bind, Except.bind]
  unfold FTn.mk'
  rw [if_neg (by show ¬ (z.order ≠ kb.length); simp [hzo])]
  simp only [selectOutputs, k3, hr, hyr, bind, Except.bind]
  rw [if_pos (by rw [k7]; exact h1), if_pos (by rw [k5, k6]; exact hnm)]

/-- C204. `f * s` for a number `s`: the values are multiplied by `s`. -/
theorem smul_spec [CommSemiring K] (f : FTn K) (a : Arr K) (ha : Represents f.tensor a) (hfc : a.shape = f.bases.map Basis.card) (s : K)
    (pts : List (List (List K))) (hp : ∀ p ∈ pts, p.map List.length = f.bases.map Basis.ndim) :
    ∃ h yf y, f.smul s = .ok h ∧ f.eval (pts.map List.flatten) = .ok yf ∧ h.eval (pts.map List.flatten) = .ok y ∧ y.shape = [pts.length] ∧
      ∀ k, k < pts.length → y.get [k] = s * yf.get [k] := by
  have hmk : ∀ (t : TVal K) (bs : List (Basis K)) f', FTn.mk' t bs = .ok f' → f' = ⟨t, bs⟩ := by
    intro t bs f' h
    unfold FTn.mk' at h
    split_ifs at h
    cases h; rfl
  obtain ⟨f', yf, f1, f2, f3, f4⟩ := eval_spec f.tensor a ha f.bases hfc pts hp
  rw [hmk _ _ _ f1] at f2
  obtain ⟨t, w, m1, m2, m3⟩ : ∃ t w, f.tensor.smul s = .ok t ∧ Represents t w ∧ w ≃ₐ FullTensor.smul s a := by
    obtain ⟨ft, fb⟩ := f
    cases ft with
    | full a' =>
      obtain ⟨rfl, ha0⟩ := ha
      exact ⟨.full (FullTensor.smul s a'), FullTensor.smul s a', rfl, ⟨rfl, ha0⟩, ⟨rfl, fun _ _ => rfl⟩⟩
    | tree x =>
      obtain ⟨hx, hfa, hxs⟩ := ha
      obtain ⟨x', y, z, k1, k2, k3, k4, k5⟩ := smul_full s x hx
      rw [hfa] at k3; cases k3
      refine ⟨.tree x', z, by simp only [TVal.smul, k1, bind, Except.bind], ⟨k2, k4, ?_⟩, k5⟩
      obtain ⟨r, hr, hroot⟩ := DimTree.root_ok hx.valid
      have e1 := rankShape_nil hx hfa hxs hr
      have hx' : x' = ⟨x.tree, upd x.tensors r (FullTensor.smul s (x.tensors r))⟩ := by
        unfold TreeBased.smul at k1
        simp only [hr, bind, Except.bind] at k1
        cases k1; rfl
      obtain ⟨V, hV⟩ := exists_value x' k2.valid
      have hr' : x'.tree.root = .ok r := by rw [hx']; exact hr
      obtain ⟨z', z1, z2, _⟩ := full_on x' k2 hV.on hr'
      rw [k4] at z1; cases z1
      have : rankShape x' r = [] := by
        rw [hx']
        unfold rankShape
        simp only [upd, if_true]
        exact e1
      rw [z2, this, List.append_nil]
  obtain ⟨h', y, h1, h2, h3, h4⟩ := eval_spec t w m2 f.bases (by rw [m3.1]; exact hfc) pts hp
  rw [hmk _ _ _ h1] at h2
  refine ⟨⟨t, f.bases⟩, yf, y, by simp only [FTn.smul, m1, bind, Except.bind], f2, h2, h3, fun k hkk => ?_⟩
  rw [h4 k hkk, f4 k hkk, value_eq_valueAt, value_eq_valueAt, m3.1]
  show valueAt w a.shape _ _ _ = _
  unfold valueAt
  rw [← sumBox_mul_left]
  refine sumBox_congr (fun idx hi => ?_)
  simp only [List.append_nil]
  rw [m3.2 idx (by rw [m3.1]; exact hi)]
  show a.get idx * s * _ = _
  ring

/-! ### the hypotheses are met -/

/-- Products of bases, in the order of the Kronecker product. -/
def kronOf [Mul K] (b c : Basis K) : Basis K := ⟨b.ndim, b.card * c.card, fun p k => b.fn p (k / c.card) * c.fn p (k % c.card)⟩

theorem areKron_of [CommSemiring K] (fb gb : List (Basis K)) (h : gb.map Basis.ndim = fb.map Basis.ndim) :
    AreKron fb gb (List.zipWith kronOf fb gb) := by
  have hl : gb.length = fb.length := by simpa using congrArg List.length h
  refine ⟨hl, by simp [hl], fun d hd => ?_⟩
  have hg : d < gb.length := by omega
  unfold nth
  rw [List.getD_eq_getElem (List.zipWith _ _ _) _ (by simp; omega), List.getElem_zipWith, List.getD_eq_getElem _ _ hd, List.getD_eq_getElem _ _ hg]
  have hn : gb[d].ndim = fb[d].ndim := by
    have := congrArg (fun l => l.getD d 0) h
    rw [List.getD_eq_getElem _ _ (by simpa using hg), List.getD_eq_getElem _ _ (by simpa using hd)] at this
    simpa using this
  refine ⟨rfl, hn, rfl, fun p i j hi hj => ?_⟩
  show fb[d].fn p ((i * gb[d].card + j) / gb[d].card) * gb[d].fn p ((i * gb[d].card + j) % gb[d].card) = _
  rw [mul_comm i, Nat.mul_add_div (by omega), Nat.div_eq_of_lt hj, Nat.mul_add_mod, Nat.mod_eq_of_lt hj, add_zero]

example : Compatible (.tree exT) (.tree exT) ∧ Compatible (.full (⟨[2, 3], fun _ => 1⟩ : Arr Int)) (.full ⟨[1, 5], fun _ => 2⟩) ∧
    AreKron exBases exBases (List.zipWith kronOf exBases exBases) :=
  ⟨⟨rfl, fun _ _ => rfl⟩, trivial, areKron_of _ _ rfl⟩

/-- A tensor with two outputs: `exT` with another axis at the root. -/
def exT2 : TBT Int := ⟨exT.tree, upd exT.tensors 1 ⟨[3, 2, 2], fun t => t.getD 0 0 + 2 * t.getD 1 0 + 10 * t.getD 2 0⟩⟩

theorem exT2_wf : WF exT2 ∧ exT2.tree.root = .ok 1 ∧ rankShape exT2 1 = [2] ∧ exT2.shape = exBases.map Basis.card :=
  ⟨wf_of_wfB _ exTree_valid (by decide +kernel), by decide +kernel, by decide +kernel, by decide +kernel⟩

/-- A concrete case of `mul_outputs_wrong`: the two outputs of `f` and of `f * f` at a point. -/
theorem mul_outputs_witness :
    (match (⟨.tree exT2, exBases⟩ : FTn Int).eval [[1, 2, 1, 2]] with | .ok y => some (y.shape, y.get [0, 0], y.get [0, 1]) | .error _ => none) =
      some ([1, 2], -297, 873) ∧
    (match FTn.mul ⟨.tree exT2, exBases⟩ ⟨.tree exT2, exBases⟩ (List.zipWith kronOf exBases exBases) with
      | .ok h => (match h.eval [[1, 2, 1, 2]] with | .ok y => some (y.shape, y.get [0, 0], y.get [0, 1]) | .error _ => none)
      | .error _ => none) = some ([1, 2], 88209, -259281) := by
  constructor <;> decide +kernel

end FunctionalTensor
end Verif
