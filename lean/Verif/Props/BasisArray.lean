import Verif.Model.Bases
import Verif.Props.Grids

/-!
# Arrays of functions on a basis (C47, C58)
-/

namespace Verif.Bases

open Verif.MultiIndices Finset Verif.Arr Verif.Grids

variable {K : Type}

/-! ### the storage of the coefficients -/

/-- The constructor refuses exactly the data of another size; the stored entry of row-major number `n` is the entry of
column-major number `n` of the data. -/
theorem mk'_spec (data : Arr K) (card : Nat) (shape : List Nat) (h : data.shape.prod = (card :: shape).prod) :
    ∃ f, FBA.mk' data card shape = .ok f ∧ f.card = card ∧ f.shape = shape ∧ f.data.shape = card :: shape ∧
      ∀ idx jdx, InBox (card :: shape) idx → InBox data.shape jdx → ravelC (card :: shape) idx = ravelF data.shape jdx →
        f.data.get idx = data.get jdx := by
  unfold FBA.mk'
  rw [if_neg (not_not.2 h)]
  refine ⟨_, rfl, rfl, rfl, rfl, fun idx jdx _ hj he => ?_⟩
  show data.get _ = _
  rw [he, unravelF_ravelF hj]

theorem mk'_refused (data : Arr K) (card : Nat) (shape : List Nat) (h : data.shape.prod ≠ (card :: shape).prod) :
    FBA.mk' data card shape = .error .valueError := by
  unfold FBA.mk'
  rw [if_pos h]

/-- At most one axis has a length other than one. -/
def OneLongAxis (s : List Nat) : Prop := (s.filter (fun n => n ≠ 1)).length ≤ 1

instance (s : List Nat) : Decidable (OneLongAxis s) := by unfold OneLongAxis; infer_instance

theorem all_ones {s : List Nat} (h : s.filter (fun n => n ≠ 1) = []) {idx : List Nat} (hi : InBox s idx) :
    ravelF s idx = 0 ∧ ravelC s idx = 0 := by
  have hp : s.prod = 1 := by
    apply List.prod_eq_one
    intro x hx
    by_contra hne
    have : x ∈ s.filter (fun n => n ≠ 1) := List.mem_filter.2 ⟨hx, by simpa using hne⟩
    rw [h] at this; simp at this
  exact ⟨by have := ravelF_lt hi; omega, by have := ravelC_lt hi; omega⟩

theorem ravel_agree {s : List Nat} (h : OneLongAxis s) {idx : List Nat} (hi : InBox s idx) : ravelC s idx = ravelF s idx := by
  induction s generalizing idx with
  | nil => simp [ravelC, ravelF]
  | cons n s ih =>
    cases idx with
    | nil => simp at hi
    | cons i idx =>
      simp only [inBox_cons_cons] at hi
      simp only [ravelC, ravelF]
      unfold OneLongAxis at h
      by_cases hn : n = 1
      · subst hn
        rw [ih (by simpa [OneLongAxis] using h) hi.2]
        have : i = 0 := by omega
        subst this; simp
      · rw [List.filter_cons_of_pos (by simpa using hn)] at h
        have h0 : s.filter (fun n => n ≠ 1) = [] := List.length_eq_zero_iff.1 (by simp only [List.length_cons] at h; omega)
        have hp : s.prod = 1 := by
          apply List.prod_eq_one
          intro x hx
          by_contra hne
          have : x ∈ s.filter (fun n => n ≠ 1) := List.mem_filter.2 ⟨hx, by simpa using hne⟩
          rw [h0] at this; simp at this
        rw [(all_ones h0 hi.2).1, (all_ones h0 hi.2).2, hp]; simp

theorem inBox_zero {s : List Nat} (h : ∀ n ∈ s, 0 < n) : InBox s (List.replicate s.length 0) := by
  induction s with
  | nil => simp
  | cons n s ih =>
    rw [List.length_cons, List.replicate_succ, inBox_cons_cons]
    exact ⟨h n (by simp), ih (fun m hm => h m (by simp [hm]))⟩

theorem ravelC_zero (s : List Nat) : ravelC s (List.replicate s.length 0) = 0 := by
  induction s with
  | nil => rfl
  | cons n s ih => simp [List.replicate_succ, ravelC, ih]

theorem ravelF_zero (s : List Nat) : ravelF s (List.replicate s.length 0) = 0 := by
  induction s with
  | nil => rfl
  | cons n s ih => simp [List.replicate_succ, ravelF, ih]

theorem filter_of_prod_one {s : List Nat} (h : s.prod = 1) : s.filter (fun n => n ≠ 1) = [] := by
  rw [List.filter_eq_nil_iff]
  intro x hx hne
  have := List.dvd_prod hx
  rw [h, Nat.dvd_one] at this
  simp [this] at hne

theorem agree_iff (s : List Nat) (hs : ∀ n ∈ s, 0 < n) :
    (∀ idx, InBox s idx → ravelC s idx = ravelF s idx) ↔ OneLongAxis s := by
  refine ⟨fun h => ?_, fun h idx hi => ravel_agree h hi⟩
  induction s with
  | nil => simp [OneLongAxis]
  | cons n s ih =>
    have hs' : ∀ m ∈ s, 0 < m := fun m hm => hs m (by simp [hm])
    have hn := hs n (by simp)
    by_cases h1 : n = 1
    · subst h1
      have := ih hs' (fun idx hi => by
        have := h (0 :: idx) (by simp [hi])
        simpa [ravelC, ravelF] using this)
      simpa [OneLongAxis] using this
    · have := h (1 :: List.replicate s.length 0) (by
        rw [inBox_cons_cons]; exact ⟨by omega, inBox_zero hs'⟩)
      simp only [ravelC, ravelF, ravelC_zero, ravelF_zero, mul_zero, add_zero, one_mul] at this
      unfold OneLongAxis
      rw [List.filter_cons_of_pos (by simpa using h1), filter_of_prod_one this]
      simp

/-- C47. The coefficients `data` of shape `[cardinal] + shape` are stored as they are given, whatever they are, exactly
when at most one of these lengths is different from one. -/
theorem mk'_keeps_iff [Nontrivial K] (card : Nat) (shape : List Nat) (h : ∀ n ∈ card :: shape, 0 < n) :
    (∀ data : Arr K, data.shape = card :: shape → ∃ f, FBA.mk' data card shape = .ok f ∧ f.data ≃ₐ data) ↔
      OneLongAxis (card :: shape) := by
  rw [← agree_iff _ h]
  constructor
  · intro hd idx hi
    by_contra hne
    obtain ⟨a, b, hab⟩ := exists_pair_ne K
    obtain ⟨f, hf, hs⟩ := hd ⟨card :: shape, fun j => if j = idx then a else b⟩ rfl
    unfold FBA.mk' at hf
    rw [if_neg (by simp)] at hf
    injection hf with hf
    have := hs.2 idx (by rw [hs.1]; exact hi)
    rw [← hf] at this
    simp only [if_true] at this
    rw [if_neg (fun he => hne (by
      rw [← ravelF_unravelF (ravelC_lt hi), he]))] at this
    exact hab this.symm
  · intro ha data hds
    obtain ⟨f, hf, _, _, hfs, hg⟩ := mk'_spec data card shape (by rw [hds])
    exact ⟨f, hf, by rw [hfs, hds], fun idx hi => hg idx idx (hfs ▸ hi) (by rw [hds]; exact hfs ▸ hi) (by
      rw [hds]; exact ha idx (hfs ▸ hi))⟩

/-- A function with one output, of any shape `[1, ..., 1]`, keeps its coefficients. -/
theorem mk'_scalar_partial (data : Arr K) (card : Nat) (shape : List Nat) (h : data.shape = card :: shape) (h1 : ∀ n ∈ shape, n = 1) :
    ∃ f, FBA.mk' data card shape = .ok f ∧ f.card = card ∧ f.shape = shape ∧ f.data ≃ₐ data := by
  obtain ⟨f, hf, h2, h3, hfs, hg⟩ := mk'_spec data card shape (by rw [h])
  refine ⟨f, hf, h2, h3, by rw [hfs, h], fun idx hi => hg idx idx (hfs ▸ hi) (by rw [h]; exact hfs ▸ hi) ?_⟩
  rw [h]
  apply ravel_agree _ (hfs ▸ hi)
  unfold OneLongAxis
  have : shape.filter (fun n => n ≠ 1) = [] := by
    rw [List.filter_eq_nil_iff]; intro x hx; simp [h1 x hx]
  rw [List.filter_cons]
  split
  · rw [this]; simp
  · rw [this]; simp

/-- In general they are not kept: with two basis functions and two outputs the matrix is transposed. -/
theorem mk'_transposes (data : Arr K) (h : data.shape = [2, 2]) :
    ∃ f, FBA.mk' data 2 [2] = .ok f ∧ ∀ i j, i < 2 → j < 2 → f.data.get [i, j] = data.get [j, i] := by
  obtain ⟨f, hf, _, _, _, hg⟩ := mk'_spec data 2 [2] (by rw [h])
  refine ⟨f, hf, fun i j hi hj => hg [i, j] [j, i] (by simp [hi, hj]) (by rw [h]; simp [hi, hj]) ?_⟩
  rw [h]
  simp only [ravelC, ravelF, List.prod_cons, List.prod_nil]
  omega

/-! ### evaluation -/

/-- Evaluation reads the stored coefficients: output `j` at point `i` is `∑_k H[i, k] data[k, j]`. -/
theorem evalWith_spec [CommSemiring K] (f : FBA K) (hs : f.data.shape = f.card :: f.shape) (H : Arr K) (n : Nat) (hH : H.shape = [n, f.card]) :
    ∃ y, f.evalWith H = .ok y ∧ y.shape = n :: f.shape ∧
      ∀ i j, i < n → InBox f.shape j → y.get (i :: j) = ∑ k ∈ range f.card, H.get [i, k] * f.data.get (k :: j) := by
  have hm : Canonical.matmul H (f.data.reshapeF [f.card, f.shape.prod]) = .ok ⟨[n, f.shape.prod], fun ij =>
      ∑ k ∈ range f.card, H.get [ij.getD 0 0, k] * (f.data.reshapeF [f.card, f.shape.prod]).get [k, ij.getD 1 0]⟩ := by
    unfold Canonical.matmul
    rw [if_pos ⟨by simp [Arr.order, hH], by simp [Arr.order, reshapeF], by simp [hH, reshapeF]⟩]
    simp [hH, reshapeF]
  refine ⟨_, by unfold FBA.evalWith; rw [hm]; rfl, by simp [reshapeF, hH], fun i j hi hj => ?_⟩
  have hlt := ravelF_lt hj
  have e : unravelF [n, f.shape.prod] (ravelF (H.shape.getD 0 0 :: f.shape) (i :: j)) = [i, ravelF f.shape j] := by
    have : ravelF (H.shape.getD 0 0 :: f.shape) (i :: j) = ravelF [n, f.shape.prod] [i, ravelF f.shape j] := by
      simp [ravelF, hH]
    rw [this, unravelF_ravelF (by simp [hi, hlt])]
  show (∑ k ∈ range f.card, _) = _
  apply sum_congr rfl
  intro k hk
  rw [mem_range] at hk
  simp only [reshapeF] at *
  rw [e]
  simp only [List.getD_cons_zero, List.getD_cons_succ, hs]
  congr 2
  have : ravelF [f.card, f.shape.prod] [k, ravelF f.shape j] = ravelF (f.card :: f.shape) (k :: j) := by simp [ravelF]
  rw [this, unravelF_ravelF (by simp [hk, hj])]

/-- C47 (partial: functions with one output). The function built with the coefficients `c` is the expansion with the
coefficients `c`. Missing: several outputs, where the coefficients are permuted (`mk'_keeps_iff`, `eval_wrong`). -/
theorem eval_scalar_partial [CommSemiring K] (data : Arr K) (card : Nat) (shape : List Nat) (h : data.shape = card :: shape)
    (h1 : ∀ n ∈ shape, n = 1) (H : Arr K) (n : Nat) (hH : H.shape = [n, card]) :
    ∃ f y, FBA.mk' data card shape = .ok f ∧ f.evalWith H = .ok y ∧ y.shape = n :: shape ∧
      ∀ i j, i < n → InBox shape j → y.get (i :: j) = ∑ k ∈ range card, H.get [i, k] * data.get (k :: j) := by
  obtain ⟨f, hf, hc, hsh, hd⟩ := mk'_scalar_partial data card shape h h1
  subst hc; subst hsh
  obtain ⟨y, hy, hys, hv⟩ := evalWith_spec f (by rw [hd.1, h]) H n hH
  refine ⟨f, y, hf, hy, hys, fun i j hi hj => ?_⟩
  rw [hv i j hi hj]
  apply sum_congr rfl
  intro k hk
  rw [hd.2 (k :: j) (by rw [hd.1, h]; simp [mem_range.1 hk, hj])]

/-- With two outputs the function is not the expansion with the given coefficients. -/
theorem eval_wrong : ∃ (data H : Arr ℚ) (f : FBA ℚ) (y : Arr ℚ), data.shape = [2, 2] ∧ H.shape = [1, 2] ∧
    FBA.mk' data 2 [2] = .ok f ∧ f.evalWith H = .ok y ∧
    y.get [0, 0] ≠ ∑ k ∈ range 2, H.get [0, k] * data.get [k, 0] := by
  refine ⟨⟨[2, 2], fun ij => if ij = [0, 1] then 1 else 0⟩, ⟨[1, 2], fun ij => if ij = [0, 1] then 1 else 0⟩, _, _, rfl, rfl, rfl, rfl, ?_⟩
  decide +kernel

/-- The opposite of an array of two functions on two basis functions is not the opposite array. -/
theorem neg_wrong : ∃ (f g : FBA ℚ), f.data.shape = f.card :: f.shape ∧ f.neg = .ok g ∧ g.data.get [0, 1] ≠ -f.data.get [0, 1] := by
  refine ⟨⟨⟨[2, 2], fun ij => if ij = [0, 1] then 1 else 0⟩, 2, [2]⟩, _, rfl, rfl, ?_⟩
  decide +kernel

/-- Nor is the opposite of the opposite the array itself (two basis functions, three outputs). -/
theorem neg_neg_wrong : ∃ (f g h : FBA ℚ), f.data.shape = f.card :: f.shape ∧ f.neg = .ok g ∧ g.neg = .ok h ∧
    h.data.get [0, 1] ≠ f.data.get [0, 1] := by
  refine ⟨⟨⟨[2, 3], fun ij => if ij = [0, 1] then 1 else 0⟩, 2, [3]⟩, _, _, rfl, rfl, rfl, ?_⟩
  decide +kernel

/-! ### arithmetic of functions with one output -/

/-- A function with one output. -/
structure Scalar (f : FBA K) : Prop where
  shape : f.data.shape = f.card :: f.shape
  one : ∀ n ∈ f.shape, n = 1

theorem scalar_rebuild {f : FBA K} (h : Scalar f) (d : Arr K) (hd : d.shape = f.data.shape) :
    ∃ g, FBA.mk' d f.card f.shape = .ok g ∧ Scalar g ∧ g.card = f.card ∧ g.shape = f.shape ∧ g.data ≃ₐ d := by
  obtain ⟨g, hg, hc, hs, hdat⟩ := mk'_scalar_partial d f.card f.shape (by rw [hd, h.shape]) h.one
  exact ⟨g, hg, ⟨by rw [hdat.1, hd, h.shape, hc, hs], by rw [hs]; exact h.one⟩, hc, hs, hdat⟩

theorem same_evals {f g : FBA K} (d : Arr K) (h : f.data ≃ₐ d) (hs : f.data.shape = f.card :: f.shape) {k : Nat} {j : List Nat}
    (hk : k < f.card) (hj : InBox f.shape j) : f.data.get (k :: j) = d.get (k :: j) :=
  h.2 _ (by rw [hs]; simp [hk, hj])

/-- C47 (partial: one output). Sum, opposite, difference and multiples of functions on one basis evaluate to the sum,
opposite, difference and multiples of the evaluations; the results have one output again, so this holds along any
chain of operations. -/
theorem arith_scalar_partial [CommRing K] (f g : FBA K) (hf : Scalar f) (hg : Scalar g) (hc : g.card = f.card) (hsh : g.shape = f.shape)
    (c : K) (H : Arr K) (n : Nat) (hH : H.shape = [n, f.card]) :
    ∃ a b s m yf yg ya yb ys ym, f.add g = .ok a ∧ f.neg = .ok b ∧ f.sub g = .ok s ∧ f.smul c = .ok m ∧
      Scalar a ∧ Scalar b ∧ Scalar s ∧ Scalar m ∧
      f.evalWith H = .ok yf ∧ g.evalWith H = .ok yg ∧ a.evalWith H = .ok ya ∧ b.evalWith H = .ok yb ∧
      s.evalWith H = .ok ys ∧ m.evalWith H = .ok ym ∧
      ∀ i j, i < n → InBox f.shape j →
        ya.get (i :: j) = yf.get (i :: j) + yg.get (i :: j) ∧ yb.get (i :: j) = -yf.get (i :: j) ∧
        ys.get (i :: j) = yf.get (i :: j) - yg.get (i :: j) ∧ ym.get (i :: j) = yf.get (i :: j) * c := by
  obtain ⟨a, ha, sa, ca, pa, da⟩ := scalar_rebuild hf (Arr.zipWith (· + ·) f.data g.data) rfl
  obtain ⟨b, hb, sb, cb, pb, db⟩ := scalar_rebuild hf (Arr.map (fun x => -x) f.data) rfl
  obtain ⟨s, hs, ss, cs, ps, ds⟩ := scalar_rebuild hf (Arr.zipWith (· - ·) f.data g.data) rfl
  obtain ⟨m, hm, sm, cm, pm, dm⟩ := scalar_rebuild hf (Arr.map (fun x => x * c) f.data) rfl
  obtain ⟨yf, e1, _, v1⟩ := evalWith_spec f hf.shape H n hH
  obtain ⟨yg, e2, _, v2⟩ := evalWith_spec g hg.shape H n (by rw [hH, hc])
  obtain ⟨ya, e3, _, v3⟩ := evalWith_spec a sa.shape H n (by rw [hH, ca])
  obtain ⟨yb, e4, _, v4⟩ := evalWith_spec b sb.shape H n (by rw [hH, cb])
  obtain ⟨ys, e5, _, v5⟩ := evalWith_spec s ss.shape H n (by rw [hH, cs])
  obtain ⟨ym, e6, _, v6⟩ := evalWith_spec m sm.shape H n (by rw [hH, cm])
  refine ⟨a, b, s, m, yf, yg, ya, yb, ys, ym, ha, hb, hs, hm, sa, sb, ss, sm, e1, e2, e3, e4, e5, e6, fun i j hi hj => ?_⟩
  rw [v1 i j hi hj, v2 i j hi (hsh ▸ hj), v3 i j hi (pa ▸ hj), v4 i j hi (pb ▸ hj), v5 i j hi (ps ▸ hj), v6 i j hi (pm ▸ hj),
    hc, ca, cb, cs, cm, ← sum_add_distrib, ← sum_sub_distrib, ← sum_neg_distrib, sum_mul]
  refine ⟨?_, ?_, ?_, ?_⟩ <;> (apply sum_congr rfl; intro k hk; rw [mem_range] at hk)
  · rw [same_evals (g := a) _ da sa.shape (ca ▸ hk) (pa ▸ hj)]; simp only [Arr.zipWith]; ring
  · rw [same_evals (g := b) _ db sb.shape (cb ▸ hk) (pb ▸ hj)]; simp only [Arr.map]; ring
  · rw [same_evals (g := s) _ ds ss.shape (cs ▸ hk) (ps ▸ hj)]; simp only [Arr.zipWith]; ring
  · rw [same_evals (g := m) _ dm sm.shape (cm ▸ hk) (pm ▸ hj)]; simp only [Arr.map]; ring

example : Scalar (⟨⟨[3, 1], fun ij => (ij.getD 0 0 : ℚ)⟩, 3, [1]⟩ : FBA ℚ) := ⟨rfl, by simp⟩

/-! ### mean and variance (C58) -/

/-- C58. When the means of the basis functions are those of a quadrature with weights `w` at the rows of `H`, the mean
of the function is the quadrature of its evaluations. -/
theorem mean_spec [CommSemiring K] (f : FBA K) (hs : f.data.shape = f.card :: f.shape) (M : List K) (hM : M.length = f.card)
    (H : Arr K) (n : Nat) (hH : H.shape = [n, f.card]) (w : Nat → K)
    (hw : ∀ k, k < f.card → M.getD k 0 = ∑ i ∈ range n, w i * H.get [i, k]) :
    ∃ m y, f.mean M = .ok m ∧ f.evalWith H = .ok y ∧ m.shape = 1 :: f.shape ∧
      ∀ j, InBox f.shape j → m.get (0 :: j) = ∑ i ∈ range n, w i * y.get (i :: j) := by
  obtain ⟨y, hy, _, hv⟩ := evalWith_spec f hs H n hH
  refine ⟨_, y, by unfold FBA.mean; rw [if_neg (by omega)], hy, rfl, fun j hj => ?_⟩
  show (∑ k ∈ range f.card, f.data.get (k :: j) * M.getD k 0) = _
  have e : (∑ i ∈ range n, w i * y.get (i :: j)) = ∑ i ∈ range n, ∑ k ∈ range f.card, w i * (H.get [i, k] * f.data.get (k :: j)) :=
    sum_congr rfl (fun i hi => by rw [hv i j (mem_range.1 hi) hj, mul_sum])
  rw [e, sum_comm]
  apply sum_congr rfl
  intro k hk
  rw [hw k (mem_range.1 hk), mul_sum]
  apply sum_congr rfl
  intro i _
  ring

/-- C58. If, moreover, the basis is orthonormal for this quadrature, `variance()` is the variance of the evaluations. -/
theorem variance_spec [CommRing K] (f : FBA K) (hs : f.data.shape = f.card :: f.shape) (M : List K) (hM : M.length = f.card)
    (H : Arr K) (n : Nat) (hH : H.shape = [n, f.card]) (w : Nat → K)
    (hw : ∀ k, k < f.card → M.getD k 0 = ∑ i ∈ range n, w i * H.get [i, k])
    (ho : ∀ k l, k < f.card → l < f.card → (∑ i ∈ range n, w i * (H.get [i, k] * H.get [i, l])) = if k = l then 1 else 0) :
    ∃ v y, f.variance M true = .ok v ∧ f.evalWith H = .ok y ∧
      ∀ j, InBox f.shape j → v.get (0 :: j) =
        (∑ i ∈ range n, w i * y.get (i :: j) ^ 2) - (∑ i ∈ range n, w i * y.get (i :: j)) ^ 2 := by
  obtain ⟨m, y, hm, hy, _, hv⟩ := mean_spec f hs M hM H n hH w hw
  obtain ⟨y', hy', _, hv'⟩ := evalWith_spec f hs H n hH
  rw [hy] at hy'; injection hy' with hy'; subst hy'
  refine ⟨_, y, by unfold FBA.variance; rw [hm]; rfl, hy, fun j hj => ?_⟩
  show (∑ k ∈ range f.card, f.data.get (k :: j) * f.data.get (k :: j)) - m.get (0 :: j) ^ 2 = _
  rw [hv j hj]
  congr 1
  have e : (∑ i ∈ range n, w i * y.get (i :: j) ^ 2) = ∑ i ∈ range n, ∑ k ∈ range f.card, ∑ l ∈ range f.card,
      w i * (H.get [i, k] * f.data.get (k :: j) * (H.get [i, l] * f.data.get (l :: j))) :=
    sum_congr rfl (fun i hi => by
      rw [hv' i j (mem_range.1 hi) hj, pow_two, sum_mul_sum, mul_sum]
      exact sum_congr rfl (fun k _ => mul_sum ..))
  rw [e, sum_comm]
  apply sum_congr rfl
  intro k hk
  rw [sum_comm, Finset.sum_eq_single k]
  · have := ho k k (mem_range.1 hk) (mem_range.1 hk)
    rw [if_pos rfl] at this
    calc f.data.get (k :: j) * f.data.get (k :: j) = (f.data.get (k :: j) * f.data.get (k :: j)) * ∑ i ∈ range n, w i * (H.get [i, k] * H.get [i, k]) := by
          rw [this, mul_one]
      _ = _ := by rw [mul_sum]; apply sum_congr rfl; intro i _; ring
  · intro l hl hne
    have := ho k l (mem_range.1 hk) (mem_range.1 hl)
    rw [if_neg (Ne.symm hne)] at this
    calc (∑ i ∈ range n, w i * (H.get [i, k] * f.data.get (k :: j) * (H.get [i, l] * f.data.get (l :: j))))
        = (f.data.get (k :: j) * f.data.get (l :: j)) * ∑ i ∈ range n, w i * (H.get [i, k] * H.get [i, l]) := by
          rw [mul_sum]; apply sum_congr rfl; intro i _; ring
      _ = 0 := by rw [this, mul_zero]
  · intro h; exact absurd hk h

/-- C58. For an orthonormal basis, `dot(g, 0)` is the scalar product of the evaluations of `f` and `g`. -/
theorem dot0_spec [CommRing K] (f g : FBA K) (hf : f.data.shape = f.card :: f.shape) (hg : g.data.shape = f.card :: f.shape)
    (hgc : g.card = f.card) (hgs : g.shape = f.shape) (H : Arr K) (n : Nat) (hH : H.shape = [n, f.card]) (w : Nat → K)
    (ho : ∀ k l, k < f.card → l < f.card → (∑ i ∈ range n, w i * (H.get [i, k] * H.get [i, l])) = if k = l then 1 else 0) :
    ∃ y z, f.evalWith H = .ok y ∧ g.evalWith H = .ok z ∧ (f.dot0 g).shape = 1 :: f.shape ∧
      ∀ j, InBox f.shape j → (f.dot0 g).get (0 :: j) = ∑ i ∈ range n, w i * (y.get (i :: j) * z.get (i :: j)) := by
  obtain ⟨y, hy, _, hv⟩ := evalWith_spec f hf H n hH
  obtain ⟨z, hz, _, hv'⟩ := evalWith_spec g (by rw [hgc, hgs]; exact hg) H n (by rw [hgc]; exact hH)
  refine ⟨y, z, hy, hz, rfl, fun j hj => ?_⟩
  show (∑ k ∈ range f.card, f.data.get (k :: j) * g.data.get (k :: j)) = _
  have e : (∑ i ∈ range n, w i * (y.get (i :: j) * z.get (i :: j))) = ∑ i ∈ range n, ∑ k ∈ range f.card, ∑ l ∈ range f.card,
      w i * (H.get [i, k] * f.data.get (k :: j) * (H.get [i, l] * g.data.get (l :: j))) :=
    sum_congr rfl (fun i hi => by
      rw [hv i j (mem_range.1 hi) hj, hv' i j (mem_range.1 hi) (by rw [hgs]; exact hj), hgc, sum_mul_sum, mul_sum]
      exact sum_congr rfl (fun k _ => mul_sum ..))
  rw [e, sum_comm]
  apply sum_congr rfl
  intro k hk
  rw [sum_comm, Finset.sum_eq_single k]
  · have := ho k k (mem_range.1 hk) (mem_range.1 hk)
    rw [if_pos rfl] at this
    calc f.data.get (k :: j) * g.data.get (k :: j) = (f.data.get (k :: j) * g.data.get (k :: j)) * ∑ i ∈ range n, w i * (H.get [i, k] * H.get [i, k]) := by
          rw [this, mul_one]
      _ = _ := by rw [mul_sum]; apply sum_congr rfl; intro i _; ring
  · intro l hl hne
    have := ho k l (mem_range.1 hk) (mem_range.1 hl)
    rw [if_neg (Ne.symm hne)] at this
    calc (∑ i ∈ range n, w i * (H.get [i, k] * f.data.get (k :: j) * (H.get [i, l] * g.data.get (l :: j))))
        = (f.data.get (k :: j) * g.data.get (l :: j)) * ∑ i ∈ range n, w i * (H.get [i, k] * H.get [i, l]) := by
          rw [mul_sum]; apply sum_congr rfl; intro i _; ring
      _ = 0 := by rw [this, mul_zero]
  · intro h; exact absurd hk h

/-- C58. `get_coefficients()` are the coefficients of the evaluations on the basis. -/
theorem coefficients_spec [CommSemiring K] (f : FBA K) (hs : f.data.shape = f.card :: f.shape) (H : Arr K) (n : Nat)
    (hH : H.shape = [n, f.card]) : f.coefficients.shape = f.card :: f.shape ∧ ∃ y, f.evalWith H = .ok y ∧
      ∀ i j, i < n → InBox f.shape j → y.get (i :: j) = ∑ k ∈ range f.card, H.get [i, k] * f.coefficients.get (k :: j) := by
  obtain ⟨y, hy, _, hv⟩ := evalWith_spec f hs H n hH
  refine ⟨rfl, y, hy, fun i j hi hj => ?_⟩
  rw [hv i j hi hj]
  apply sum_congr rfl
  intro k hk
  have hb : InBox (f.card :: f.shape) (k :: j) := .cons (mem_range.1 hk) hj
  congr 1
  unfold FBA.coefficients Arr.reshapeF
  show _ = f.data.get (unravelF f.data.shape (ravelF (f.card :: f.shape) (k :: j)))
  rw [hs, unravelF_ravelF hb]

/-- The hypotheses are met: two orthonormal functions at two points. -/
example : let H : Arr ℚ := ⟨[2, 2], fun i => if i = [1, 1] then -1 else 1⟩
    ∀ k l, k < 2 → l < 2 → (∑ i ∈ range 2, (fun _ => (1 / 2 : ℚ)) i * (H.get [i, k] * H.get [i, l])) = if k = l then 1 else 0 := by
  intro H k l hk hl
  obtain rfl | rfl : k = 0 ∨ k = 1 := by omega
  all_goals obtain rfl | rfl : l = 0 ∨ l = 1 := by omega
  all_goals decide +kernel

theorem variance_refused [CommRing K] (f : FBA K) (M : List K) (hM : M.length = f.card) :
    f.variance M false = .error .notImplemented := by
  unfold FBA.variance FBA.mean
  rw [if_neg (by omega)]; rfl

end Verif.Bases
