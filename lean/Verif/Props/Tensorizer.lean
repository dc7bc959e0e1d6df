import Verif.Model.Tensorizer
import Verif.Props.Utils
import Mathlib.Tactic.FieldSimp
import Mathlib.Tactic.Linarith
import Mathlib.Data.List.GetD
import Mathlib.Data.Rat.Floor
import Mathlib.Tactic.NormNum

/-!
# Tensorisation of variables (C42)
-/

namespace Verif.Tensorizer

open Verif.Utils

variable {K : Type} [Field K] [LinearOrder K] [IsStrictOrderedRing K] [FloorRing K]

/-! ### one variable -/

/-- `u2z` on `[0, 1]`: `u bᵈ = (i₁ … i_d)_b + y` with digits below `b` and `y` in `[0, 1)`, except that `y = 1` at
`u = 1`. -/
theorem u2z_spec (u : K) (b d : Nat) (hb : 0 < b) (hd : 0 < d) (h0 : 0 ≤ u) (h1 : u ≤ 1) :
    ∃ ds y, u2z u b d = .ok (ds, y) ∧ ds.length = d ∧ (∀ x ∈ ds, x < b) ∧ u * (b : K) ^ d = digitValue b ds + y ∧
      0 ≤ y ∧ y ≤ 1 ∧ (u < 1 → y < 1) ∧ (u = 1 → y = 1) := by
  have hB : (0 : K) < (b : K) ^ d := pow_pos (by exact_mod_cast hb) d
  have hBn : (0 : Int) < (b : Int) ^ d := pow_pos (by exact_mod_cast hb) d
  set su := u * (b : K) ^ d with hsu
  set i : Int := min ⌊su⌋ ((b : Int) ^ d - 1) with hi
  have hsu0 : 0 ≤ su := mul_nonneg h0 hB.le
  have hfl : 0 ≤ ⌊su⌋ := Int.floor_nonneg.2 hsu0
  have hi0 : 0 ≤ i := le_min hfl (by omega)
  have hilt : i < (b : Int) ^ d := lt_of_le_of_lt (min_le_right _ _) (by omega)
  obtain ⟨rows, hrows⟩ := (integer2baseb_ok_iff [i] b d hd).2 (by
    intro k hk
    rw [List.mem_singleton] at hk; subst hk
    exact ⟨hi0, by push_cast; exact hilt⟩)
  have hspec := (integer2baseb_spec [i] b d hd rows).1 hrows
  obtain ⟨ds, rfl⟩ : ∃ ds, rows = [ds] := List.length_eq_one_iff.1 hspec.length_eq.symm
  have hs : ds.length = d ∧ (∀ x ∈ ds, x < b) ∧ (digitValue b ds : Int) = i := by
    cases hspec with
    | cons h _ => exact h
  refine ⟨ds, su - (i : K), ?_, hs.1, hs.2.1, ?_, ?_, ?_, ?_, ?_⟩
  · unfold u2z
    simp only [← hsu, ← hi, hrows, bind, Except.bind]
    rfl
  · have : ((digitValue b ds : Nat) : K) = (i : K) := by
      rw [← hs.2.2]; simp
    rw [this]; ring
  · have : (i : K) ≤ su := le_trans (by exact_mod_cast min_le_left _ _) (Int.floor_le su)
    linarith
  · by_cases hlt : u < 1
    · have hsl : su < (b : K) ^ d := by
        rw [hsu]; calc u * (b : K) ^ d < 1 * (b : K) ^ d := mul_lt_mul_of_pos_right hlt hB
          _ = _ := one_mul _
      have : ⌊su⌋ ≤ (b : Int) ^ d - 1 := by
        have : ⌊su⌋ < (b : Int) ^ d := Int.floor_lt.2 (by push_cast; exact hsl)
        omega
      have hie : i = ⌊su⌋ := min_eq_left this
      rw [hie]
      have := Int.lt_floor_add_one su
      linarith
    · have hu : u = 1 := le_antisymm h1 (not_lt.1 hlt)
      have hse : su = (b : K) ^ d := by rw [hsu, hu, one_mul]
      have hf : ⌊su⌋ = (b : Int) ^ d := by
        rw [hse]
        have : ((b : K) ^ d) = (((b : Int) ^ d : Int) : K) := by push_cast; rfl
        rw [this, Int.floor_intCast]
      have hie : i = (b : Int) ^ d - 1 := by rw [hi, hf]; exact min_eq_right (by omega)
      rw [hie, hse]; push_cast; linarith
  · intro hlt
    have hsl : su < (b : K) ^ d := by
      rw [hsu]; calc u * (b : K) ^ d < 1 * (b : K) ^ d := mul_lt_mul_of_pos_right hlt hB
        _ = _ := one_mul _
    have : ⌊su⌋ ≤ (b : Int) ^ d - 1 := by
      have : ⌊su⌋ < (b : Int) ^ d := Int.floor_lt.2 (by push_cast; exact hsl)
      omega
    have hie : i = ⌊su⌋ := min_eq_left this
    rw [hie]
    have := Int.lt_floor_add_one su
    linarith
  · intro hu
    have hse : su = (b : K) ^ d := by rw [hsu, hu, one_mul]
    have hf : ⌊su⌋ = (b : Int) ^ d := by
      rw [hse]
      have : ((b : K) ^ d) = (((b : Int) ^ d : Int) : K) := by push_cast; rfl
      rw [this, Int.floor_intCast]
    have hie : i = (b : Int) ^ d - 1 := by rw [hi, hf]; exact min_eq_right (by omega)
    rw [hie, hse]; push_cast; ring

theorem trunc_nat (n : Nat) : trunc (n : K) = n := by
  unfold trunc
  rw [if_neg (not_lt.2 (Nat.cast_nonneg n)), Int.floor_natCast]

/-- `z2u` reads the digits back. -/
theorem z2u_spec (ds : List Nat) (y : K) (b : Nat) (h : ∀ x ∈ ds, x < b) :
    z2u (ds.map (fun n : Nat => (n : K)) ++ [y]) b = .ok ((y + digitValue b ds) * ((b : K) ^ ds.length)⁻¹) := by
  have hl : (ds.map (fun n : Nat => (n : K)) ++ [y]).length - 1 = ds.length := by simp
  have hy : (ds.map (fun n : Nat => (n : K)) ++ [y]).getD ds.length 0 = y := by
    rw [List.getD_append_right _ _ _ _ (by simp)]; simp
  have ht : (ds.map (fun n : Nat => (n : K)) ++ [y]).take ds.length = ds.map (fun n : Nat => (n : K)) :=
    List.take_left' (by simp)
  have hm : (ds.map (fun n : Nat => (n : K))).map trunc = ds.map Int.ofNat := by
    rw [List.map_map]; exact List.map_congr_left (fun n _ => trunc_nat n)
  have hb := (baseb2integer_spec [ds.map Int.ofNat] b [digitValue b ds]).2 (.cons ⟨by
    intro x hx
    obtain ⟨n, hn, rfl⟩ := List.mem_map.1 hx
    exact ⟨Int.natCast_nonneg n, by show (n : Int) < b; exact_mod_cast h n hn⟩, by rw [map_toNat_map_cast]⟩ .nil)
  unfold z2u
  simp only [hl, hy, ht, hm, hb, bind, Except.bind]
  rfl

theorem digitValue_lt (ds : List Nat) (b : Nat) (h : ∀ x ∈ ds, x < b) (hd : 0 < ds.length) : digitValue b ds < b ^ ds.length := by
  have h1 := (integer2baseb_spec [(digitValue b ds : Int)] b ds.length hd [ds]).2 (.cons ⟨rfl, h, rfl⟩ .nil)
  have h2 := ((integer2baseb_ok_iff _ b ds.length hd).1 ⟨_, h1⟩) _ (List.mem_singleton.2 rfl)
  exact_mod_cast h2.2

/-- The digits and the remainder of `u` are determined by `u bᵈ = (i₁ … i_d)_b + y` with `y` in `[0, 1)`. -/
theorem u2z_unique (ds : List Nat) (y : K) (b : Nat) (hd : 0 < ds.length) (h : ∀ x ∈ ds, x < b) (h0 : 0 ≤ y) (h1 : y < 1) :
    u2z ((y + digitValue b ds) * ((b : K) ^ ds.length)⁻¹) b ds.length = .ok (ds, y) := by
  have hb : 0 < b := by
    obtain ⟨x, hx⟩ := List.exists_mem_of_length_pos hd
    have := h x hx; omega
  have hB : (b : K) ^ ds.length ≠ 0 := (pow_pos (by exact_mod_cast hb) _).ne'
  have hlt := digitValue_lt ds b h hd
  have hsu : (y + digitValue b ds) * ((b : K) ^ ds.length)⁻¹ * (b : K) ^ ds.length = y + digitValue b ds := by
    rw [mul_assoc, inv_mul_cancel₀ hB, mul_one]
  have hf : ⌊y + (digitValue b ds : K)⌋ = (digitValue b ds : Int) := by
    rw [Int.floor_add_natCast, Int.floor_eq_zero_iff.2 ⟨h0, h1⟩, zero_add]
  have hmin : min (digitValue b ds : Int) ((b : Int) ^ ds.length - 1) = (digitValue b ds : Int) := by
    apply min_eq_left
    have : (digitValue b ds : Int) < (b : Int) ^ ds.length := by exact_mod_cast hlt
    omega
  have hr := (integer2baseb_spec [(digitValue b ds : Int)] b ds.length hd [ds]).2 (.cons ⟨rfl, h, rfl⟩ .nil)
  unfold u2z
  simp only [hsu, hf, hmin, hr, bind, Except.bind]
  simp

/-- Reading back the digits of a number of `[0, 1]`. -/
theorem z2u_u2z (u : K) (b d : Nat) (hb : 0 < b) (hd : 0 < d) (h0 : 0 ≤ u) (h1 : u ≤ 1) :
    ∃ ds y, u2z u b d = .ok (ds, y) ∧ z2u (ds.map (fun n : Nat => (n : K)) ++ [y]) b = .ok u := by
  obtain ⟨ds, y, h2, h3, h4, h5, _⟩ := u2z_spec u b d hb hd h0 h1
  refine ⟨ds, y, h2, ?_⟩
  have hB : (b : K) ^ d ≠ 0 := (pow_pos (by exact_mod_cast hb) _).ne'
  rw [z2u_spec ds y b h4, h3, add_comm y, ← h5, mul_assoc, mul_inv_cancel₀ hB, mul_one]

/-! ### lists of digits -/

theorem filter_stride (k m step : Nat) (hk : k < step) :
    (List.range (m * step)).filter (fun j => decide (k ≤ j ∧ (j - k) % step = 0)) = (List.range m).map (fun q => k + q * step) := by
  induction m with
  | zero => simp
  | succ m ih =>
    rw [Nat.succ_mul, List.range_add, List.filter_append, ih, List.range_succ, List.map_append]
    congr 1
    have hf : ((List.range step).map (fun x => m * step + x)).filter (fun j => decide (k ≤ j ∧ (j - k) % step = 0)) =
        ((List.range step).map (fun x => m * step + x)).filter (fun j => decide (j = m * step + k)) := by
      apply List.filter_congr
      intro j hj
      obtain ⟨x, hx, rfl⟩ := List.mem_map.1 hj
      have hx := List.mem_range.1 hx
      rw [decide_eq_decide]
      constructor
      · rintro ⟨h1, h2⟩
        by_cases hxk : k ≤ x
        · have : m * step + x - k = x - k + step * m := by rw [Nat.mul_comm]; omega
          rw [this, Nat.add_mul_mod_self_left, Nat.mod_eq_of_lt (by omega)] at h2
          omega
        · rcases Nat.eq_zero_or_pos m with hm | hm
          · subst hm; omega
          · obtain ⟨m', rfl⟩ : ∃ m', m = m' + 1 := ⟨m - 1, by omega⟩
            have : (m' + 1) * step + x - k = (step + x - k) + step * m' := by
              have : (m' + 1) * step = step + step * m' := by ring
              omega
            rw [this, Nat.add_mul_mod_self_left, Nat.mod_eq_of_lt (by omega)] at h2
            omega
      · intro h
        have hxk : x = k := by omega
        subst hxk
        refine ⟨by omega, ?_⟩
        rw [Nat.add_sub_cancel, Nat.mul_mod_left]
    rw [hf, List.filter_map]
    have hg : (List.range step).filter ((fun j => decide (j = m * step + k)) ∘ fun x => m * step + x) =
        (List.range step).filter (fun x => decide (x = k)) := by
      apply List.filter_congr
      intro x _
      simp
    rw [hg]
    have hone : (List.range step).filter (fun x => decide (x = k)) = [k] := by
      have hp : (List.range step).filter (fun x => decide (x = k)) = List.replicate ((List.range step).count k) k := by
        rw [← List.filter_beq]; congr 1
      rw [hp, List.count_eq_one_of_mem List.nodup_range (List.mem_range.2 hk)]; rfl
    rw [hone]
    simp [Nat.add_comm]

theorem stride_eq (i : List K) (k m step : Nat) (hk : k < step) :
    stride i k (m * step) step = (List.range m).map (fun q => i.getD (k + q * step) 0) := by
  unfold stride
  rw [filter_stride k m step hk, List.map_map]
  rfl

theorem flatten_getD {α : Type} (z : α) (L : List (List α)) (n : Nat) (h : ∀ l ∈ L, l.length = n) (k q : Nat) (hk : k < L.length)
    (hq : q < n) : L.flatten.getD (k * n + q) z = (L.getD k []).getD q z := by
  induction L generalizing k with
  | nil => simp at hk
  | cons l L ih =>
    have hl := h l (by simp)
    rw [List.flatten_cons]
    cases k with
    | zero =>
      rw [Nat.zero_mul, Nat.zero_add, List.getD_append _ _ _ _ (by omega), List.getD_cons_zero]
    | succ k =>
      have e : (k + 1) * n + q = l.length + (k * n + q) := by rw [hl]; ring
      rw [e, List.getD_append_right _ _ _ _ (by omega), Nat.add_sub_cancel_left, List.getD_cons_succ]
      exact ih (fun l hl => h l (by simp [hl])) k (by simpa using hk)

theorem flatten_length {α : Type} (L : List (List α)) (n : Nat) (h : ∀ l ∈ L, l.length = n) : L.flatten.length = L.length * n := by
  induction L with
  | nil => simp
  | cons l L ih =>
    rw [List.flatten_cons, List.length_append, h l (by simp), ih (fun l hl => h l (by simp [hl])), List.length_cons]
    ring

theorem mapM_range_ok {α : Type} (n : Nat) (f : Nat → Py α) (g : Nat → α) (h : ∀ k < n, f k = .ok (g k)) :
    (List.range n).mapM f = .ok ((List.range n).map g) := by
  rw [mapM_ok_iff, List.forall₂_map_right_iff, List.forall₂_same]
  exact fun k hk => h k (List.mem_range.1 hk)

theorem getD_map_range {α : Type} (n k : Nat) (f : Nat → α) (z : α) (h : k < n) : ((List.range n).map f).getD k z = f k := by
  rw [List.getD_eq_getElem _ _ (by simpa using h), List.getElem_map, List.getElem_range]

/-! ### several variables -/

/-- The position of the digit `j` of the variable `k` in `map(x)`: variable by variable, or digit by digit. -/
def pos (t : Tz K) (k j : Nat) : Nat := if t.ordering = 2 then j * t.dim + k else k * t.d + j

/-- `z` has the digits `D k` and the remainders `y k`. -/
structure Codes (t : Tz K) (z : List K) (D : Nat → List Nat) (y : Nat → K) : Prop where
  length : z.length = t.dim * t.d + t.dim
  digits : ∀ k < t.dim, (D k).length = t.d ∧ ∀ x ∈ D k, x < t.b
  at_digit : ∀ k < t.dim, ∀ j < t.d, z.getD (pos t k j) 0 = ((D k).getD j 0 : K)
  at_rest : ∀ k < t.dim, z.getD (t.dim * t.d + k) 0 = y k

/-- The code is determined by its digits and its remainders. -/
theorem Codes.unique {t : Tz K} (ho : t.ordering = 1 ∨ t.ordering = 2) {z z' : List K} {D : Nat → List Nat} {y : Nat → K}
    (h : Codes t z D y) (h' : Codes t z' D y) : z = z' := by
  apply List.ext_getElem (by rw [h.length, h'.length])
  intro m m1 m2
  rw [h.length] at m1
  have hg : z.getD m 0 = z'.getD m 0 := by
    by_cases hm : m < t.dim * t.d
    · have hdpos : 0 < t.d := by
        rcases Nat.eq_zero_or_pos t.d with h0 | h0
        · rw [h0] at hm; simp at hm
        · exact h0
      have hdim : 0 < t.dim := by
        rcases Nat.eq_zero_or_pos t.dim with h0 | h0
        · rw [h0] at hm; simp at hm
        · exact h0
      obtain ⟨k, hk, j, hj, e⟩ : ∃ k < t.dim, ∃ j < t.d, pos t k j = m := by
        rcases ho with ho | ho
        · refine ⟨m / t.d, Nat.div_lt_of_lt_mul (by rw [Nat.mul_comm]; exact hm), m % t.d, Nat.mod_lt _ hdpos, ?_⟩
          unfold pos; rw [if_neg (by omega)]
          exact Nat.div_add_mod' m t.d
        · refine ⟨m % t.dim, Nat.mod_lt _ hdim, m / t.dim, Nat.div_lt_of_lt_mul hm, ?_⟩
          unfold pos; rw [if_pos ho]
          exact Nat.div_add_mod' m t.dim
      rw [← e, h.at_digit k hk j hj, h'.at_digit k hk j hj]
    · have e : m = t.dim * t.d + (m - t.dim * t.d) := by omega
      rw [e, h.at_rest _ (by omega), h'.at_rest _ (by omega)]
  rwa [List.getD_eq_getElem _ _ (by rw [h.length]; exact m1), List.getD_eq_getElem _ _ m2] at hg

/-- Laying out digits and remainders as `map` does. -/
theorem layout_codes (t : Tz K) (ho : t.ordering = 1 ∨ t.ordering = 2) (hd : 0 < t.d) (D : Nat → List Nat) (y : Nat → K)
    (hD : ∀ k < t.dim, (D k).length = t.d ∧ ∀ x ∈ D k, x < t.b) :
    let r := (List.range t.dim).map (fun k => ((D k).map (fun n : Nat => (n : K)), y k))
    let i := (r.map Prod.fst).flatten
    Codes t ((if t.ordering = 2 then ((List.range t.d).map (fun k => stride i k i.length t.d)).flatten else i) ++ r.map Prod.snd) D y := by
  intro r i
  have hr1 : r.map Prod.fst = (List.range t.dim).map (fun k => (D k).map (fun n : Nat => (n : K))) := by
    simp only [r, List.map_map]; rfl
  have hr2 : r.map Prod.snd = (List.range t.dim).map y := by
    simp only [r, List.map_map]; rfl
  have hLl : ∀ l ∈ r.map Prod.fst, l.length = t.d := by
    rw [hr1]
    intro l hl
    obtain ⟨k, hk, rfl⟩ := List.mem_map.1 hl
    rw [List.length_map]; exact (hD k (List.mem_range.1 hk)).1
  have hil : i.length = t.dim * t.d := by
    show (r.map Prod.fst).flatten.length = _
    rw [flatten_length _ t.d hLl, hr1]; simp
  have hi : ∀ k < t.dim, ∀ j < t.d, i.getD (k * t.d + j) 0 = ((D k).getD j 0 : K) := by
    intro k hk j hj
    show (r.map Prod.fst).flatten.getD _ 0 = _
    rw [flatten_getD 0 _ t.d hLl k j (by rw [hr1]; simpa using hk) hj, hr1,
      getD_map_range _ _ _ _ hk]
    have hjl : j < (D k).length := by rw [(hD k hk).1]; exact hj
    rw [List.getD_eq_getElem _ _ (by simpa using hjl), List.getElem_map, List.getD_eq_getElem _ _ hjl]
  -- the digits
  set I := if t.ordering = 2 then ((List.range t.d).map (fun k => stride i k i.length t.d)).flatten else i with hI
  have hIl : I.length = t.dim * t.d ∧ ∀ k < t.dim, ∀ j < t.d, I.getD (pos t k j) 0 = ((D k).getD j 0 : K) := by
    rcases ho with ho | ho
    · rw [hI, if_neg (by omega)]
      refine ⟨hil, fun k hk j hj => ?_⟩
      unfold pos; rw [if_neg (by omega)]; exact hi k hk j hj
    · rw [hI, if_pos ho]
      have hS : (List.range t.d).map (fun k => stride i k i.length t.d) =
          (List.range t.d).map (fun k => (List.range t.dim).map (fun q => i.getD (k + q * t.d) 0)) := by
        refine List.map_congr_left (fun k hk => ?_)
        rw [hil]; exact stride_eq i k t.dim t.d (List.mem_range.1 hk)
      rw [hS]
      have hSl : ∀ l ∈ (List.range t.d).map (fun k => (List.range t.dim).map (fun q => i.getD (k + q * t.d) 0)), l.length = t.dim := by
        intro l hl
        obtain ⟨k, _, rfl⟩ := List.mem_map.1 hl
        simp
      refine ⟨by rw [flatten_length _ _ hSl]; simp [Nat.mul_comm], fun k hk j hj => ?_⟩
      unfold pos; rw [if_pos ho, flatten_getD 0 _ t.dim hSl j k (by simpa using hj) hk,
        getD_map_range _ _ _ _ hj, getD_map_range _ _ _ _ hk, Nat.add_comm]
      exact hi k hk j hj
  have hpos : ∀ k < t.dim, ∀ j < t.d, pos t k j < t.dim * t.d := by
    intro k hk j hj
    unfold pos
    split
    · calc j * t.dim + k < j * t.dim + t.dim := by omega
        _ = (j + 1) * t.dim := by ring
        _ ≤ t.d * t.dim := Nat.mul_le_mul_right _ hj
        _ = _ := Nat.mul_comm _ _
    · calc k * t.d + j < k * t.d + t.d := by omega
        _ = (k + 1) * t.d := by ring
        _ ≤ t.dim * t.d := Nat.mul_le_mul_right _ hk
  refine ⟨?_, hD, ?_, ?_⟩
  · rw [List.length_append, hIl.1, hr2]; simp
  · intro k hk j hj
    rw [List.getD_append _ _ _ _ (by rw [hIl.1]; exact hpos k hk j hj)]
    exact hIl.2 k hk j hj
  · intro k hk
    rw [List.getD_append_right _ _ _ _ (by rw [hIl.1]; omega), hIl.1, Nat.add_sub_cancel_left, hr2,
      List.getD_eq_getElem _ _ (by simpa using hk), List.getElem_map, List.getElem_range]

/-- `map(x)`: the entry at the position of digit `j` of variable `k` is that digit of `cdf(xₖ) bᵈ`, and the last entries
are the images of the remainders. -/
theorem map_spec (t : Tz K) (hb : 0 < t.b) (hd : 0 < t.d) (ho : t.ordering = 1 ∨ t.ordering = 2) (x : List K)
    (hx : ∀ k < t.dim, 0 ≤ t.cdfX k (x.getD k 0) ∧ t.cdfX k (x.getD k 0) ≤ 1) :
    ∃ (z : List K) (D : Nat → List Nat) (y : Nat → K), map t x = .ok z ∧ Codes t z D (fun k => t.icdfY k (y k)) ∧
      ∀ k < t.dim, t.cdfX k (x.getD k 0) * (t.b : K) ^ t.d = digitValue t.b (D k) + y k ∧ 0 ≤ y k ∧ y k ≤ 1 ∧
        (t.cdfX k (x.getD k 0) < 1 → y k < 1) := by
  have hex : ∀ k, ∃ p : List Nat × K, k < t.dim → u2z (t.cdfX k (x.getD k 0)) t.b t.d = .ok p ∧ p.1.length = t.d ∧
      (∀ a ∈ p.1, a < t.b) ∧ t.cdfX k (x.getD k 0) * (t.b : K) ^ t.d = digitValue t.b p.1 + p.2 ∧ 0 ≤ p.2 ∧ p.2 ≤ 1 ∧
      (t.cdfX k (x.getD k 0) < 1 → p.2 < 1) := by
    intro k
    by_cases hk : k < t.dim
    · obtain ⟨ds, y, h1, h2, h3, h4, h5, h6, h7, _⟩ := u2z_spec (t.cdfX k (x.getD k 0)) t.b t.d hb hd (hx k hk).1 (hx k hk).2
      exact ⟨(ds, y), fun _ => ⟨h1, h2, h3, h4, h5, h6, h7⟩⟩
    · exact ⟨([], 0), fun h => absurd h hk⟩
  choose p hp using hex
  have hl := layout_codes t ho hd (fun k => (p k).1) (fun k => t.icdfY k (p k).2) (fun k hk => ⟨(hp k hk).2.1, (hp k hk).2.2.1⟩)
  refine ⟨_, _, fun k => (p k).2, ?_, hl, fun k hk => ⟨(hp k hk).2.2.2.1, (hp k hk).2.2.2.2.1, (hp k hk).2.2.2.2.2.1, (hp k hk).2.2.2.2.2.2⟩⟩
  unfold map
  rw [mapM_range_ok t.dim _ (fun k => ((p k).1.map (fun n : Nat => (n : K)), t.icdfY k (p k).2)) (by
    intro k hk
    simp only [(hp k hk).1, bind, Except.bind])]
  simp only [bind, Except.bind]
  rcases ho with ho | ho
  · rw [if_neg (by omega), if_neg (by omega)]
    rw [if_neg (by omega)]
  · rw [if_pos ho, if_pos ho]

/-- `inverse_map(z)` on a code. -/
theorem inverseMap_spec (t : Tz K) (hd : 0 < t.d) (ho : t.ordering = 1 ∨ t.ordering = 2) (z : List K) (D : Nat → List Nat)
    (y : Nat → K) (hz : Codes t z D y) :
    inverseMap t z = .ok ((List.range t.dim).map (fun k =>
      t.icdfX k ((t.cdfY k (y k) + digitValue t.b (D k)) * ((t.b : K) ^ t.d)⁻¹))) := by
  unfold inverseMap
  apply mapM_range_ok
  intro k hk
  have hy : z.getD (z.length - t.dim + k) 0 = y k := by
    rw [hz.length, Nat.add_sub_cancel]; exact hz.at_rest k hk
  have hdig : (List.range t.d).map (fun j => z.getD (pos t k j) 0) = (D k).map (fun n : Nat => (n : K)) := by
    apply List.ext_getElem (by simp [(hz.digits k hk).1])
    intro j h1 h2
    have hj : j < t.d := by simpa using h1
    rw [List.getElem_map, List.getElem_range, List.getElem_map, hz.at_digit k hk j hj,
      List.getD_eq_getElem _ _ (by rw [(hz.digits k hk).1]; exact hj)]
  have hik : digitColumns t z k = .ok ((D k).map (fun n : Nat => (n : K))) := by
    unfold digitColumns
    rcases ho with ho | ho
    · rw [if_pos ho, ← hdig]
      congr 1
      refine List.map_congr_left (fun j _ => ?_)
      unfold pos; rw [if_neg (by omega), Nat.add_comm]
    · rw [if_neg (by omega), if_pos ho, ← hdig, Nat.mul_comm, stride_eq z k t.d t.dim hk]
      congr 1
      refine List.map_congr_left (fun j _ => ?_)
      unfold pos; rw [if_pos ho, Nat.add_comm]
  simp only [hik, hy, bind, Except.bind]
  rw [z2u_spec (D k) _ t.b (hz.digits k hk).2, (hz.digits k hk).1]

/-- C42. `inverse_map(map(x)) = x` for each point where the distribution functions are inverse to each other. -/
theorem inverseMap_map (t : Tz K) (hb : 0 < t.b) (hd : 0 < t.d) (ho : t.ordering = 1 ∨ t.ordering = 2) (x : List K)
    (hl : x.length = t.dim)
    (hx : ∀ k < t.dim, 0 ≤ t.cdfX k (x.getD k 0) ∧ t.cdfX k (x.getD k 0) ≤ 1 ∧ t.icdfX k (t.cdfX k (x.getD k 0)) = x.getD k 0)
    (hY : ∀ k < t.dim, ∀ y, 0 ≤ y → y ≤ 1 → t.cdfY k (t.icdfY k y) = y) :
    ∃ z, map t x = .ok z ∧ inverseMap t z = .ok x := by
  obtain ⟨z, D, y, h1, h2, h3⟩ := map_spec t hb hd ho x (fun k hk => ⟨(hx k hk).1, (hx k hk).2.1⟩)
  refine ⟨z, h1, ?_⟩
  rw [inverseMap_spec t hd ho z D _ h2]
  congr 1
  apply List.ext_getElem (by simp [hl])
  intro k k1 k2
  have hk : k < t.dim := by simpa using k1
  obtain ⟨g1, g2, g3, _⟩ := h3 k hk
  have hB : (t.b : K) ^ t.d ≠ 0 := (pow_pos (by exact_mod_cast hb) _).ne'
  rw [List.getElem_map, List.getElem_range, hY k hk _ g2 g3, add_comm, ← g1, mul_assoc, mul_inv_cancel₀ hB, mul_one,
    (hx k hk).2.2, List.getD_eq_getElem _ _ k2]

/-- C42. `map(inverse_map(z)) = z` for digits below `b` and remainders in `[0, 1)`. -/
theorem map_inverseMap (t : Tz K) (hb : 0 < t.b) (hd : 0 < t.d) (ho : t.ordering = 1 ∨ t.ordering = 2) (z : List K)
    (D : Nat → List Nat) (y : Nat → K) (hz : Codes t z D y)
    (hy : ∀ k < t.dim, 0 ≤ t.cdfY k (y k) ∧ t.cdfY k (y k) < 1 ∧ t.icdfY k (t.cdfY k (y k)) = y k)
    (hX : ∀ k < t.dim, ∀ u, 0 ≤ u → u < 1 → t.cdfX k (t.icdfX k u) = u) :
    ∃ x, inverseMap t z = .ok x ∧ x.length = t.dim ∧ map t x = .ok z := by
  refine ⟨_, inverseMap_spec t hd ho z D y hz, by simp, ?_⟩
  have hBpos : (0 : K) < (t.b : K) ^ t.d := pow_pos (by exact_mod_cast hb) _
  have hu : ∀ k < t.dim, u2z ((t.cdfY k (y k) + digitValue t.b (D k)) * ((t.b : K) ^ t.d)⁻¹) t.b t.d = .ok (D k, t.cdfY k (y k)) ∧
      0 ≤ (t.cdfY k (y k) + digitValue t.b (D k)) * ((t.b : K) ^ t.d)⁻¹ ∧
      (t.cdfY k (y k) + digitValue t.b (D k)) * ((t.b : K) ^ t.d)⁻¹ < 1 := by
    intro k hk
    have hdl := (hz.digits k hk).1
    have := u2z_unique (D k) (t.cdfY k (y k)) t.b (by omega) (hz.digits k hk).2 (hy k hk).1 (hy k hk).2.1
    rw [hdl] at this
    refine ⟨this, mul_nonneg (add_nonneg (hy k hk).1 (Nat.cast_nonneg _)) (inv_nonneg.2 hBpos.le), ?_⟩
    rw [← div_eq_mul_inv, div_lt_one hBpos]
    have hlt := digitValue_lt (D k) t.b (hz.digits k hk).2 (by omega)
    rw [hdl] at hlt
    have h2 : ((digitValue t.b (D k) : Nat) : K) + 1 ≤ (t.b : K) ^ t.d := by exact_mod_cast hlt
    have h3 := (hy k hk).2.1
    linarith
  unfold map
  rw [mapM_range_ok t.dim _ (fun k => ((D k).map (fun n : Nat => (n : K)), y k)) (by
    intro k hk
    rw [List.getD_eq_getElem _ _ (by simpa using hk), List.getElem_map, List.getElem_range]
    obtain ⟨h1, h2, h3⟩ := hu k hk
    simp only [hX k hk _ h2 h3, h1, bind, Except.bind, (hy k hk).2.2])]
  have hl := layout_codes t ho hd D y hz.digits
  dsimp only at hl
  simp only [bind, Except.bind]
  rcases ho with ho | ho
  · rw [if_neg (by omega), if_neg (by omega)]
    rw [if_neg (by omega)] at hl
    exact congrArg _ (Codes.unique (.inl ho) hl hz)
  · rw [if_pos ho]
    rw [if_pos ho] at hl
    exact congrArg _ (Codes.unique (.inr ho) hl hz)

/-- Any other ordering type is refused. -/
theorem map_refused (t : Tz K) (hb : 0 < t.b) (hd : 0 < t.d) (h1 : t.ordering ≠ 1) (h2 : t.ordering ≠ 2) (x : List K)
    (hx : ∀ k < t.dim, 0 ≤ t.cdfX k (x.getD k 0) ∧ t.cdfX k (x.getD k 0) ≤ 1) : map t x = .error .valueError := by
  have hex : ∀ k, ∃ p : List Nat × K, k < t.dim → u2z (t.cdfX k (x.getD k 0)) t.b t.d = .ok p := by
    intro k
    by_cases hk : k < t.dim
    · obtain ⟨ds, y, h, _⟩ := u2z_spec (t.cdfX k (x.getD k 0)) t.b t.d hb hd (hx k hk).1 (hx k hk).2
      exact ⟨(ds, y), fun _ => h⟩
    · exact ⟨([], 0), fun h => absurd h hk⟩
  choose p hp using hex
  unfold map
  rw [mapM_range_ok t.dim _ (fun k => ((p k).1.map (fun n : Nat => (n : K)), t.icdfY k (p k).2)) (by
    intro k hk
    simp only [hp k hk, bind, Except.bind])]
  simp only [bind, Except.bind]
  rw [if_neg h2, if_pos h1]

/-! ### the default: uniform variables on `[0, 1]` -/

/-- `UniformRandomVariable(inf, sup).cdf` (uniform_random_variable.py l.71-87, by the contract of
`scipy.stats.uniform.cdf`). -/
def uniformCdf (a b x : K) : K := if x ≤ a then 0 else if b ≤ x then 1 else (x - a) / (b - a)

/-- `UniformRandomVariable(inf, sup).icdf` (uniform_random_variable.py l.89-105). -/
def uniformIcdf (a b u : K) : K := a + u * (b - a)

theorem uniform_left (a b u : K) (h : a < b) (h0 : 0 ≤ u) (h1 : u ≤ 1) : uniformCdf a b (uniformIcdf a b u) = u := by
  have hp : 0 < b - a := sub_pos.2 h
  unfold uniformCdf uniformIcdf
  split
  · rename_i hle
    have : u * (b - a) ≤ 0 := by linarith
    nlinarith
  · split
    · rename_i hle
      nlinarith
    · rw [add_sub_cancel_left, mul_div_assoc, div_self hp.ne', mul_one]

theorem uniform_right (a b x : K) (h : a < b) (h0 : a ≤ x) (h1 : x ≤ b) :
    0 ≤ uniformCdf a b x ∧ uniformCdf a b x ≤ 1 ∧ uniformIcdf a b (uniformCdf a b x) = x := by
  have hp : 0 < b - a := sub_pos.2 h
  unfold uniformCdf uniformIcdf
  split
  · rename_i hle
    have : x = a := le_antisymm hle h0
    subst this; simp
  · split
    · rename_i hle
      have : x = b := le_antisymm h1 hle
      subst this; simp
    · refine ⟨div_nonneg (by linarith) hp.le, (div_le_one hp).2 (by linarith), ?_⟩
      rw [div_mul_cancel₀ _ hp.ne']; ring

/-- C42 for the default variables: every point of `[0, 1]ⁿ`, the last one included, is recovered from its code. -/
theorem inverseMap_map_uniform (b d dim ord : Nat) (hb : 0 < b) (hd : 0 < d) (ho : ord = 1 ∨ ord = 2) (x : List K)
    (hl : x.length = dim) (hx : ∀ v ∈ x, 0 ≤ v ∧ v ≤ 1) :
    let t : Tz K := ⟨b, d, dim, ord, fun _ => uniformCdf 0 1, fun _ => uniformIcdf 0 1, fun _ => uniformCdf 0 1, fun _ => uniformIcdf 0 1⟩
    ∃ z, map t x = .ok z ∧ inverseMap t z = .ok x := by
  intro t
  refine inverseMap_map t hb hd ho x hl ?_ ?_
  · intro k hk
    have hv := hx (x.getD k 0) (by
      rw [List.getD_eq_getElem _ _ (by rw [hl]; exact hk)]; exact List.getElem_mem _)
    exact uniform_right 0 1 _ zero_lt_one hv.1 hv.2
  · intro k _ y h0 h1
    exact uniform_left 0 1 y zero_lt_one h0 h1

/-- Two variables, two binary digits each, digits interleaved. -/
def exTz : Tz ℚ := ⟨2, 2, 2, 2, fun _ => uniformCdf 0 1, fun _ => uniformIcdf 0 1, fun _ => uniformCdf 0 1, fun _ => uniformIcdf 0 1⟩

/-- The hypotheses of `map_inverseMap` are met: the first variable has the digits 1, 0, the second one 0, 1. -/
theorem exTz_codes : Codes exTz [1, 0, 0, 1, 1 / 2, 1 / 4] (fun k => if k = 0 then [1, 0] else [0, 1])
    (fun k => if k = 0 then 1 / 2 else 1 / 4) := by
  refine ⟨rfl, ?_, ?_, ?_⟩
  · intro k hk
    have : k = 0 ∨ k = 1 := by have : k < 2 := hk; omega
    rcases this with rfl | rfl <;> decide
  · intro k hk j hj
    have h1 : k = 0 ∨ k = 1 := by have : k < 2 := hk; omega
    have h2 : j = 0 ∨ j = 1 := by have : j < 2 := hj; omega
    rcases h1 with rfl | rfl <;> rcases h2 with rfl | rfl <;> simp [pos, exTz]
  · intro k hk
    have : k = 0 ∨ k = 1 := by have : k < 2 := hk; omega
    rcases this with rfl | rfl <;> simp [exTz]

example : ∃ x, inverseMap exTz [1, 0, 0, 1, 1 / 2, 1 / 4] = .ok x ∧ x.length = 2 ∧ map exTz x = .ok [1, 0, 0, 1, 1 / 2, 1 / 4] := by
  refine map_inverseMap exTz (by decide) (by decide) (.inr rfl) _ _ _ exTz_codes ?_ ?_
  · intro k hk
    have : k = 0 ∨ k = 1 := by have : k < 2 := hk; omega
    rcases this with rfl | rfl <;> simp [exTz, uniformCdf, uniformIcdf] <;> norm_num
  · intro k _ u h0 h1
    exact uniform_left 0 1 u zero_lt_one h0 h1.le

end Verif.Tensorizer
