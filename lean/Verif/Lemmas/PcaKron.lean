import Verif.Lemmas.Pca

/-!
# The matrices of the internal nodes: products of the matrices of the children
-/

namespace Verif.Pca

open Verif.Arr Verif.DimTree Verif.TreeBased Verif.Truncation Verif.Grids Finset

theorem mergeIdx_nil (s : List Nat) : ∀ (rest : List Nat) (pos : Nat), mergeIdx [] s pos rest.length rest = rest
  | [], _ => rfl
  | a :: rest, pos => by
    show (if pos ∈ [] then _ else _) = _
    rw [if_neg (by simp)]
    simp only [List.headD_cons, List.tail_cons]
    rw [mergeIdx_nil s rest (pos + 1)]

theorem dropAxes_nil {α : Type} (l : List α) : dropAxes [] l = l := by
  unfold dropAxes
  simp

/-- The outer product of two arrays. -/
theorem outer_ok (x y : Arr ℝ) : ∃ z, FullTensor.tensordotT x y [] [] = .ok z ∧ z.shape = x.shape ++ y.shape ∧
    ∀ u v, u.length = x.shape.length → v.length = y.shape.length → z.get (u ++ v) = x.get u * y.get v := by
  refine ⟨x.tensordot y [] [], by unfold FullTensor.tensordotT; exact if_pos rfl, ?_, ?_⟩
  · show dropAxes [] x.shape ++ dropAxes [] y.shape = _
    rw [dropAxes_nil, dropAxes_nil]
  · intro u v hu hv
    show sumBox [] (fun s => x.get (mergeIdx [] s 0 x.order ((u ++ v).take (dropAxes [] x.shape).length)) *
      y.get (mergeIdx [] s 0 y.order ((u ++ v).drop (dropAxes [] x.shape).length))) = _
    rw [dropAxes_nil, List.take_left' hu, List.drop_left' hu]
    unfold Arr.order
    rw [← hu, ← hv]
    simp only [sumBox, mergeIdx_nil]

/-- `[t₁, s₁, t₂, s₂, ...]`. -/
def inter (t s : List Nat) : List Nat := (List.zipWith (fun a b => [a, b]) t s).flatten

theorem inter_append {t1 s1 : List Nat} (h : t1.length = s1.length) (t2 s2 : List Nat) :
    inter (t1 ++ t2) (s1 ++ s2) = inter t1 s1 ++ inter t2 s2 := by
  unfold inter; rw [List.zipWith_append h, List.flatten_append]

theorem length_inter : ∀ {t s : List Nat}, t.length = s.length → (inter t s).length = 2 * t.length
  | [], [], _ => rfl
  | [], _ :: _, h => by simp at h
  | _ :: _, [], h => by simp at h
  | a :: t, b :: s, h => by
    have := length_inter (t := t) (s := s) (by simpa using h)
    show (a :: b :: inter t s).length = _
    simp only [List.length_cons, this]; omega

theorem inter_inBox : ∀ {p q t s : List Nat}, InBox p t → InBox q s → p.length = q.length → InBox (inter p q) (inter t s)
  | _, _, _, _, .nil, .nil, _ => .nil
  | _, _, _, _, .nil, .cons _ _, h => by simp at h
  | _, _, _, _, .cons _ _, .nil, h => by simp at h
  | _, _, _, _, .cons a h1, .cons b h2, h => .cons a (.cons b (inter_inBox h1 h2 (by simpa using h)))

theorem entriesAt_inter : ∀ {t s : List Nat}, t.length = s.length →
    entriesAt ((List.range t.length).map (2 * ·)) (inter t s) = t
  | [], [], _ => rfl
  | [], _ :: _, h => by simp at h
  | _ :: _, [], h => by simp at h
  | a :: t, b :: s, h => by
    have ih := entriesAt_inter (t := t) (s := s) (by simpa using h)
    show entriesAt _ (a :: b :: inter t s) = _
    unfold entriesAt at ih ⊢
    rw [List.length_cons, List.range_succ_eq_map, List.map_cons, List.map_cons, List.map_map, List.map_map]
    congr 1
    conv_rhs => rw [← ih]
    rw [List.map_map]
    apply List.map_congr_left
    intro i _
    simp [Function.comp_def, Nat.mul_succ]

theorem odds (k : Nat) : (List.range (2 * k)).filter (fun j => j ∉ (List.range k).map (2 * ·)) = (List.range k).map (fun i => 2 * i + 1) := by
  have h1 : (List.range (2 * k)).filter (fun j => j ∉ (List.range k).map (2 * ·)) = (List.range (2 * k)).filter (fun j => j % 2 == 1) := by
    apply List.filter_congr
    intro j hj
    rw [List.mem_range] at hj
    have : j ∉ (List.range k).map (2 * ·) ↔ j % 2 = 1 := by
      simp only [List.mem_map, List.mem_range, not_exists, not_and]
      constructor
      · intro h
        by_contra hc
        exact h (j / 2) (by omega) (by omega)
      · intro h x _ hx; omega
    simp only [this]
    rfl
  rw [h1]
  clear h1
  induction k with
  | zero => rfl
  | succ k ih =>
    rw [show 2 * (k + 1) = 2 * k + 1 + 1 by ring, List.range_succ, List.range_succ, List.range_succ (n := k), List.filter_append,
      List.filter_append, ih, List.map_append]
    simp

theorem entriesOff_inter {t s : List Nat} (h : t.length = s.length) :
    entriesOff ((List.range t.length).map (2 * ·)) (inter t s) = s := by
  unfold entriesOff
  rw [length_inter h, odds]
  induction t generalizing s with
  | nil => cases s with
    | nil => rfl
    | cons => simp at h
  | cons a t ih => cases s with
    | nil => simp at h
    | cons b s =>
      have := ih (s := s) (by simpa using h)
      show List.map _ (List.map _ (List.range (t.length + 1))) = _
      rw [List.range_succ_eq_map, List.map_cons, List.map_cons, List.map_map, List.map_map]
      refine congrArg₂ List.cons rfl ?_
      conv_rhs => rw [← this]
      rw [List.map_map]
      apply List.map_congr_left
      intro i _
      show (a :: b :: inter t s).getD (2 * (i + 1) + 1) 0 = (inter t s).getD (2 * i + 1) 0
      rw [show 2 * (i + 1) + 1 = (2 * i + 1) + 1 + 1 by ring]
      rfl

/-- The product of the entries of the matrices `B c`. -/
def kprod (B : Nat → Arr ℝ) (cs t s : List Nat) : ℝ :=
  (List.zipWith (fun c (ab : Nat × Nat) => (B c).get [ab.1, ab.2]) cs (t.zip s)).prod

theorem kprod_append (B : Nat → Arr ℝ) {c1 t1 s1 : List Nat} (h1 : t1.length = c1.length) (h2 : s1.length = c1.length) (c2 t2 s2 : List Nat) :
    kprod B (c1 ++ c2) (t1 ++ t2) (s1 ++ s2) = kprod B c1 t1 s1 * kprod B c2 t2 s2 := by
  unfold kprod
  rw [List.zip_append (h1.trans h2.symm), List.zipWith_append (by simp [h1, h2]), List.prod_append]

theorem kprod_cons (B : Nat → Arr ℝ) (c t s : Nat) (cs ts ss : List Nat) :
    kprod B (c :: cs) (t :: ts) (s :: ss) = (B c).get [t, s] * kprod B cs ts ss := by
  unfold kprod
  rw [List.zip_cons_cons, List.zipWith_cons_cons, List.prod_cons]

theorem tensorChain (B : Nat → Arr ℝ) (p q : Nat → Nat) (rest pre : List Nat) (x : Arr ℝ)
    (hB : ∀ c ∈ rest, (B c).shape = [p c, q c]) (hx : x.shape = inter (pre.map p) (pre.map q))
    (hg : ∀ t s, t.length = pre.length → s.length = pre.length → x.get (inter t s) = kprod B pre t s) :
    ∃ z, (rest.map B).foldlM (fun B C => FullTensor.tensordotT B C [] []) x = .ok z ∧
      z.shape = inter ((pre ++ rest).map p) ((pre ++ rest).map q) ∧
      ∀ t s, t.length = (pre ++ rest).length → s.length = (pre ++ rest).length → z.get (inter t s) = kprod B (pre ++ rest) t s := by
  induction rest generalizing pre x with
  | nil => exact ⟨x, rfl, by simpa using hx, by simpa using hg⟩
  | cons c rest ih =>
    obtain ⟨z, h1, h2, h3⟩ := outer_ok x (B c)
    have hsh : z.shape = inter ((pre ++ [c]).map p) ((pre ++ [c]).map q) := by
      rw [h2, hx, hB c (by simp), List.map_append, List.map_append, inter_append (by simp)]
      rfl
    have hg' : ∀ t s, t.length = (pre ++ [c]).length → s.length = (pre ++ [c]).length → z.get (inter t s) = kprod B (pre ++ [c]) t s := by
      intro t s ht hs
      rw [List.length_append, List.length_singleton] at ht hs
      obtain ⟨t', a, rfl⟩ := (List.eq_nil_or_concat t).resolve_left (by rintro rfl; simp at ht)
      obtain ⟨s', b, rfl⟩ := (List.eq_nil_or_concat s).resolve_left (by rintro rfl; simp at hs)
      rw [List.length_concat] at ht hs
      have ht' : t'.length = pre.length := by omega
      have hs' : s'.length = pre.length := by omega
      rw [List.concat_eq_append, List.concat_eq_append, inter_append (by omega), h3, hg t' s' ht' hs', kprod_append B ht' hs']
      · congr 1
        show (B c).get [a, b] = _
        unfold kprod; simp
      · rw [hx, length_inter (by omega), length_inter (by simp)]; simp [ht']
      · rw [hB c (by simp)]; rfl
    obtain ⟨z', g1, g2, g3⟩ := ih (pre ++ [c]) z (fun c' hc' => hB c' (by simp [hc'])) hsh hg'
    refine ⟨z', ?_, ?_, ?_⟩
    · rw [List.map_cons, List.foldlM_cons, h1]; exact g1
    · simpa using g2
    · simpa using g3

/-- `_tensor_product_b_alpha`: the Kronecker product of the matrices. -/
theorem tensorProductB_ok (B : Nat → Arr ℝ) (p q : Nat → Nat) (cs : List Nat) (hne : cs ≠ []) (hB : ∀ c ∈ cs, (B c).shape = [p c, q c]) :
    ∃ C, tensorProductB (cs.map B) = .ok C ∧ C.shape = [(cs.map p).prod, (cs.map q).prod] ∧
      ∀ t s, InBox (cs.map p) t → InBox (cs.map q) s → C.get [ravelF (cs.map p) t, ravelF (cs.map q) s] = kprod B cs t s := by
  cases cs with
  | nil => exact absurd rfl hne
  | cons c rest =>
    obtain ⟨z, h1, h2, h3⟩ := tensorChain B p q rest [c] (B c) (fun c' hc' => hB c' (by simp [hc'])) (by rw [hB c (by simp)]; rfl)
      (by
        intro t s ht hs
        match t, s, ht, hs with
        | [a], [b], _, _ => show (B c).get [a, b] = _; unfold kprod; simp)
    rw [List.singleton_append] at h2 h3
    have hl : z.order = 2 * (c :: rest).length := by
      unfold Arr.order; rw [h2, length_inter (by simp)]; simp
    have hk : z.order / 2 = ((c :: rest).map p).length := by rw [hl, List.length_map]; omega
    obtain ⟨C, c1, c2, c3⟩ := FullTensor.matricize_default z ((List.range ((c :: rest).map p).length).map (2 * ·))
      (List.Nodup.map (fun a b h => by simp at h; exact h) List.nodup_range)
      (by
        intro k hk
        obtain ⟨i, hi, rfl⟩ := List.mem_map.1 hk
        rw [List.mem_range, List.length_map] at hi
        rw [hl]; omega)
    have e1 : entriesAt ((List.range ((c :: rest).map p).length).map (2 * ·)) z.shape = (c :: rest).map p := by
      rw [h2]; exact entriesAt_inter (by simp)
    have e2 : entriesOff ((List.range ((c :: rest).map p).length).map (2 * ·)) z.shape = (c :: rest).map q := by
      rw [h2]; exact entriesOff_inter (by simp)
    rw [e1, e2] at c2 c3
    refine ⟨C, ?_, c2, ?_⟩
    · show (do
        let t ← (rest.map B).foldlM (fun B C => FullTensor.tensordotT B C [] []) (B c)
        FullTensor.matricize t ((List.range (t.order / 2)).map (2 * ·))) = _
      rw [h1]
      show FullTensor.matricize z _ = _
      rw [hk]; exact c1
    · intro t s ht hs
      have ht' := ht.length_eq
      have hs' := hs.length_eq
      rw [List.length_map] at ht' hs'
      have hb : InBox z.shape (inter t s) := by rw [h2]; exact inter_inBox ht hs (by simp)
      have := c3 _ hb
      have el : ((c :: rest).map p).length = t.length := by rw [List.length_map]; exact ht'.symm
      rw [el, entriesAt_inter (by omega), entriesOff_inter (by omega)] at this
      rw [this, h3 t s (by omega) (by omega)]

/-- The product of invertible matrices is invertible. -/
theorem kprod_inv (B C : Nat → Arr ℝ) (n : Nat → Nat) (cs : List Nat)
    (h : ∀ c ∈ cs, ∀ i j, i < n c → j < n c → ∑ k ∈ range (n c), (B c).get [i, k] * (C c).get [k, j] = if i = j then 1 else 0) (t u : List Nat)
    (ht : InBox (cs.map n) t) (hu : InBox (cs.map n) u) :
    sumBox (cs.map n) (fun s => kprod B cs t s * kprod C cs s u) = if t = u then 1 else 0 := by
  induction cs generalizing t u with
  | nil => cases ht; cases hu; simp [sumBox, kprod]
  | cons c cs ih =>
    rw [List.map_cons] at ht hu ⊢
    match t, u, ht, hu with
    | a :: t, b :: u, .cons ha ht, .cons hb hu =>
      have ih' := ih (fun c' hc' => h c' (by simp [hc'])) t u ht hu
      show ∑ k ∈ range (n c), sumBox (cs.map n) (fun s => kprod B (c :: cs) (a :: t) (k :: s) * kprod C (c :: cs) (k :: s) (b :: u)) = _
      have : ∀ k ∈ range (n c), sumBox (cs.map n) (fun s => kprod B (c :: cs) (a :: t) (k :: s) * kprod C (c :: cs) (k :: s) (b :: u)) =
          ((B c).get [a, k] * (C c).get [k, b]) * (if t = u then 1 else 0) := by
        intro k _
        rw [← ih', ← sumBox_mul_left]
        apply sumBox_congr
        intro s _
        rw [kprod_cons, kprod_cons]; ring
      rw [sum_congr rfl this, ← sum_mul, h c (by simp) a b ha hb]
      by_cases h1 : a = b <;> by_cases h2 : t = u <;> simp [h1, h2]

end Verif.Pca
