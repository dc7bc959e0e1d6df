import Verif.Model.Utils

/-! # Properties C01 and C15 -/

namespace Verif.Utils

/-! ## Specification -/

/-- The integer `Σ_k digits[k] * b^(d-1-k)` written by a digit row, most significant digit first. -/
def digitValue (b : Nat) (digits : List Nat) : Nat :=
  (digits.mapIdx (fun k x => x * b ^ (digits.length - 1 - k))).sum

/-! ## Auxiliary -/

theorem digitValue_cons (b x : Nat) (l : List Nat) :
    digitValue b (x :: l) = x * b ^ l.length + digitValue b l := by
  unfold digitValue
  rw [List.mapIdx_cons]
  simp only [List.length_cons, List.sum_cons, Nat.add_sub_cancel, Nat.sub_zero]
  congr 2
  apply List.ext_getElem <;> simp
  intro i h
  left; congr 1; omega

theorem digitValue_append_singleton (b x : Nat) (l : List Nat) :
    digitValue b (l ++ [x]) = b * digitValue b l + x := by
  induction l with
  | nil => simp [digitValue]
  | cons a l ih =>
    rw [List.cons_append, digitValue_cons, ih, digitValue_cons]
    simp only [List.length_append, List.length_singleton, pow_succ]; ring

theorem ravelF_replicate (b : Nat) (l : List Nat) :
    ravelF (List.replicate l.length b) l = digitValue b l.reverse := by
  induction l with
  | nil => simp [ravelF, digitValue]
  | cons x l ih =>
    rw [List.reverse_cons, digitValue_append_singleton, ← ih, List.length_cons,
      List.replicate_succ, ravelF]; omega

theorem inBox_replicate (b : Nat) (l : List Nat) (d : Nat) :
    InBox (List.replicate d b) l ↔ l.length = d ∧ ∀ x ∈ l, x < b := by
  induction d generalizing l with
  | zero => simp; rintro rfl; simp
  | succ d ih =>
    cases l with
    | nil => simp [List.replicate_succ]
    | cons x l => simp [List.replicate_succ, ih]; try tauto

theorem inBoxZ_replicate (b d : Nat) (r : List Int) :
    inBoxZ (List.replicate d b) r = true ↔ r.length = d ∧ ∀ x ∈ r, 0 ≤ x ∧ x < b := by
  induction d generalizing r with
  | zero => cases r <;> simp [inBoxZ]
  | succ d ih =>
    cases r with
    | nil => simp [inBoxZ]
    | cons x r =>
      have := ih r
      simp only [inBoxZ, Bool.and_eq_true, beq_iff_eq, List.length_replicate] at this ⊢
      simp only [List.replicate_succ, List.zipWith_cons_cons, List.all_cons, id_eq,
        Bool.and_eq_true, decide_eq_true_eq, List.length_cons, List.forall_mem_cons]
      constructor
      · rintro ⟨h1, h2, h3⟩
        have h4 := this.1 ⟨by omega, h3⟩
        exact ⟨h1, h2, h4.2⟩
      · rintro ⟨h1, h2, h3⟩
        exact ⟨h1, h2, (this.2 ⟨by omega, h3⟩).2⟩

theorem unravel_digit_spec (b d : Nat) (hd : 0 < d) (k : Int) (r : List Nat) :
    (unravelIndexF (List.replicate d b) k).map List.reverse = .ok r ↔
      r.length = d ∧ (∀ x ∈ r, x < b) ∧ (digitValue b r : Int) = k := by
  have hne : List.replicate d b ≠ [] := by
    intro h; have := congrArg List.length h; simp at this; omega
  unfold unravelIndexF
  rw [if_neg hne]
  split
  · rename_i h
    have hk : k.toNat < (List.replicate d b).prod := by omega
    have hbox := unravelF_inBox hk
    have hrav := ravelF_unravelF hk
    have hlen := hbox.length_eq
    rw [List.length_replicate] at hlen
    have h2 := ((inBox_replicate b _ d).1 hbox)
    simp only [Except.map, Except.ok.injEq]
    constructor
    · rintro rfl
      refine ⟨by simpa using hlen, by simpa using h2.2, ?_⟩
      rw [← ravelF_replicate, hlen, hrav]; omega
    · rintro ⟨h3, h4, h5⟩
      have h6 : InBox (List.replicate d b) r.reverse :=
        (inBox_replicate b _ d).2 ⟨by simpa using h3, by simpa using h4⟩
      have h7 : ravelF (List.replicate d b) r.reverse = k.toNat := by
        have := ravelF_replicate b r.reverse
        rw [List.length_reverse, h3, List.reverse_reverse] at this
        rw [this]; omega
      rw [← h7, unravelF_ravelF h6, List.reverse_reverse]
  · rename_i h
    simp only [Except.map, reduceCtorEq, false_iff]
    rintro ⟨h3, h4, h5⟩
    apply h
    have h6 : InBox (List.replicate d b) r.reverse :=
      (inBox_replicate b _ d).2 ⟨by simpa using h3, by simpa using h4⟩
    have h7 : ravelF (List.replicate d b) r.reverse = digitValue b r := by
      have := ravelF_replicate b r.reverse
      rwa [List.length_reverse, h3, List.reverse_reverse] at this
    have := ravelF_lt h6
    omega

/-! ## C01: base-`b` digit conversion -/

/-- C01. `integer2baseb` with `d ≥ 1` digits succeeds with rows `rows` exactly when each row has `d`
digits below `b` and writes the corresponding integer, most significant digit first; otherwise (some
integer is negative or at least `b^d`) it raises. -/
theorem integer2baseb_spec (i : List Int) (b d : Nat) (hd : 0 < d) (rows : List (List Nat)) :
    integer2baseb i b (some d) = .ok rows ↔
      List.Forall₂ (fun k r => r.length = d ∧ (∀ x ∈ r, x < b) ∧ (digitValue b r : Int) = k) i rows := by
  unfold integer2baseb
  rw [mapM_ok_iff]
  simp only [Option.getD_some]
  constructor <;> intro h <;> refine h.imp ?_ <;> intro k r hr
  · exact (unravel_digit_spec b d hd k r).1 hr
  · exact (unravel_digit_spec b d hd k r).2 hr

/-- C01. It succeeds exactly for integers in `[0, b^d)`. -/
theorem integer2baseb_ok_iff (i : List Int) (b d : Nat) (hd : 0 < d) :
    (∃ rows, integer2baseb i b (some d) = .ok rows) ↔ ∀ k ∈ i, 0 ≤ k ∧ k < (b ^ d : Nat) := by
  have hne : List.replicate d b ≠ [] := by
    intro h; have := congrArg List.length h; simp at this; omega
  unfold integer2baseb
  simp only [Option.getD_some]
  constructor
  · rintro ⟨rows, h⟩ k hk
    rw [mapM_ok_iff] at h
    have : ∃ r, (unravelIndexF (List.replicate d b) k).map List.reverse = .ok r := by
      clear hd hne
      induction h with
      | nil => simp at hk
      | cons h1 _ ih =>
        rcases List.mem_cons.1 hk with rfl | hk
        · exact ⟨_, h1⟩
        · exact ih hk
    obtain ⟨r, hr⟩ := this
    unfold unravelIndexF at hr
    rw [if_neg hne] at hr
    split at hr
    · rename_i hh; simpa using hh
    · cases hr
  · intro h
    induction i with
    | nil => exact ⟨[], rfl⟩
    | cons k i ih =>
      obtain ⟨rows, hr⟩ := ih (fun k hk => h k (List.mem_cons_of_mem _ hk))
      have hk := h k (by simp)
      refine ⟨(unravelF (List.replicate d b) k.toNat).reverse :: rows, ?_⟩
      rw [mapM_ok_iff] at hr ⊢
      refine .cons ?_ hr
      unfold unravelIndexF
      rw [if_neg hne, if_pos (by simpa using hk)]; rfl

/-- C01. `baseb2integer` returns exactly the integers written by the rows and raises when an entry is
not a digit. -/
theorem baseb2integer_spec (I0 : List (List Int)) (b : Nat) (out : List Nat) :
    baseb2integer I0 b = .ok out ↔
      List.Forall₂ (fun (r : List Int) n => (∀ x ∈ r, 0 ≤ x ∧ x < (b : Int)) ∧ n = digitValue b (r.map Int.toNat)) I0 out := by
  unfold baseb2integer
  rw [mapM_ok_iff]
  have key : ∀ (r : List Int) (n : Nat),
      ravelMultiIndexF (List.replicate r.length b) r.reverse = .ok n ↔
      (∀ x ∈ r, 0 ≤ x ∧ x < b) ∧ n = digitValue b (r.map Int.toNat) := by
    intro r n
    have h0 : ravelF (List.replicate r.length b) (r.reverse.map Int.toNat)
        = digitValue b (r.map Int.toNat) := by
      have := ravelF_replicate b (r.reverse.map Int.toNat)
      simpa only [List.length_map, List.length_reverse, List.map_reverse, List.reverse_reverse] using this
    unfold ravelMultiIndexF
    split
    · rename_i h
      have := (inBoxZ_replicate b _ _).1 h
      simp only [Except.ok.injEq, h0]
      constructor
      · rintro rfl; exact ⟨fun x hx => this.2 x (by simpa using hx), rfl⟩
      · rintro ⟨_, rfl⟩; rfl
    · rename_i h
      simp only [reduceCtorEq, false_iff]
      rintro ⟨h1, _⟩
      exact h ((inBoxZ_replicate b _ _).2 ⟨by simp, fun x hx => h1 x (by simpa using hx)⟩)
  constructor <;> intro h <;> refine h.imp ?_ <;> intro r n hr
  · exact (key r n).1 hr
  · exact (key r n).2 hr

theorem map_toNat_map_cast (r : List Nat) : (r.map Int.ofNat).map Int.toNat = r := by
  rw [List.map_map]; conv_rhs => rw [← List.map_id r]
  exact List.map_congr_left (fun x _ => by simp)

/-- C01 round trip: writing integers of `[0, b^d)` in base `b` and reading the digits back returns
the integers. -/
theorem baseb2integer_integer2baseb (i : List Int) (b d : Nat) (hd : 0 < d)
    (hi : ∀ k ∈ i, 0 ≤ k ∧ k < (b ^ d : Nat)) :
    ∃ rows, integer2baseb i b (some d) = .ok rows ∧
      (baseb2integer (rows.map (List.map Int.ofNat)) b).map (List.map Int.ofNat) = .ok i := by
  obtain ⟨rows, hr⟩ := (integer2baseb_ok_iff i b d hd).2 hi
  refine ⟨rows, hr, ?_⟩
  have hs := (integer2baseb_spec i b d hd rows).1 hr
  have : baseb2integer (rows.map (List.map Int.ofNat)) b = .ok (i.map Int.toNat) := by
    rw [baseb2integer_spec, List.forall₂_map_left_iff, List.forall₂_map_right_iff]
    refine hs.flip.imp ?_
    rintro r k ⟨_, h2, h3⟩
    refine ⟨?_, ?_⟩
    · intro x hx
      obtain ⟨y, hy, rfl⟩ := List.mem_map.1 hx
      have := h2 y hy
      exact ⟨by simp, by simpa using this⟩
    · rw [map_toNat_map_cast]; omega
  rw [this]
  simp only [Except.map, List.map_map, Except.ok.injEq]
  conv_rhs => rw [← List.map_id i]
  exact List.map_congr_left (fun k hk => by have := hi k hk; simp; omega)

/-- C01 round trip: reading `d`-digit rows and writing the integers again returns the rows. -/
theorem integer2baseb_baseb2integer (rows : List (List Nat)) (b d : Nat) (hd : 0 < d)
    (hrows : ∀ r ∈ rows, r.length = d ∧ ∀ x ∈ r, x < b) :
    ∃ out, baseb2integer (rows.map (List.map Int.ofNat)) b = .ok out ∧
      integer2baseb (out.map Int.ofNat) b (some d) = .ok rows := by
  refine ⟨rows.map (digitValue b), ?_, ?_⟩
  · rw [baseb2integer_spec, List.forall₂_map_left_iff, List.forall₂_map_right_iff]
    rw [List.forall₂_same]
    intro r hr
    refine ⟨?_, ?_⟩
    · intro x hx
      obtain ⟨y, hy, rfl⟩ := List.mem_map.1 hx
      exact ⟨by simp, by simpa using (hrows r hr).2 y hy⟩
    · rw [map_toNat_map_cast]
  · rw [integer2baseb_spec _ _ _ hd, List.map_map, List.forall₂_map_left_iff, List.forall₂_same]
    intro r hr
    exact ⟨(hrows r hr).1, (hrows r hr).2, by simp⟩

/-- C01 default digit count: for `b ≥ 2` the default `d` holds every integer of the list and no
smaller number of digits does (in exact arithmetic, see `defaultDigits`). -/
theorem defaultDigits_spec (i : List Int) (b : Nat) (hb : 2 ≤ b) (hi : ∀ k ∈ i, 0 ≤ k) (d : Nat) :
    defaultDigits i b ≤ d ↔ ∀ k ∈ i, k < (b ^ d : Nat) := by
  unfold defaultDigits
  rw [Nat.clog_le_iff_le_pow (by omega)]
  constructor
  · intro h k hk
    have := foldr_max_mono i k hk
    have := hi k hk
    omega
  · intro h
    have : ∀ (l : List Int), (∀ k ∈ l, 0 ≤ k) → (∀ k ∈ l, k < (b ^ d : Nat)) →
        l.foldr (fun x m => max x.toNat m) 0 < b ^ d := by
      intro l hl0 hl
      induction l with
      | nil => simpa using (Nat.pow_pos (by omega) : 0 < b ^ d)
      | cons a l ih =>
        simp only [List.foldr_cons, max_lt_iff]
        have h1 := hl a (by simp)
        have h2 := hl0 a (by simp)
        exact ⟨by omega, ih (fun k hk => hl0 k (by simp [hk])) (fun k hk => hl k (by simp [hk]))⟩
    exact this i hi h

/-- C01 finding: with the digit count left out, the list `[0]` gets zero digits and is refused
instead of being written. -/
theorem integer2baseb_zero_default_raises (b : Nat) :
    integer2baseb [0] b none = .error .valueError := by
  simp [integer2baseb, defaultDigits, unravelIndexF]; rfl

-- non-vacuity: 11 in base 3 with 4 digits is 0102, and out-of-range arguments raise
example : integer2baseb [11, 80] 3 (some 4) = .ok [[0, 1, 0, 2], [2, 2, 2, 2]] := by decide
example : baseb2integer [[0, 1, 0, 2]] 3 = .ok [11] := by decide
example : integer2baseb [81] 3 (some 4) = .error .valueError := by decide
example : baseb2integer [[0, 3]] 3 = .error .valueError := by decide

/-! ## C15: `fast_intersect`, `fast_setdiff` -/

/-- C15. On duplicate-free arrays `fast_intersect` returns the common elements, strictly
increasing. -/
theorem fastIntersect_spec (a b : List Int) (ha : a.Nodup) (hb : b.Nodup) :
    (∀ x, x ∈ fastIntersect a b ↔ x ∈ a ∧ x ∈ b) ∧ (fastIntersect a b).Pairwise (· < ·) := by
  have hperm := List.perm_insertionSort (· ≤ ·) (a ++ b)
  have hsort := List.pairwise_insertionSort (· ≤ ·) (a ++ b)
  have hcount : ∀ x, ((a ++ b).insertionSort (· ≤ ·)).count x
      = a.count x + b.count x := by
    intro x; rw [hperm.count_eq, List.count_append]
  have ha1 : ∀ x, a.count x ≤ 1 := List.nodup_iff_count_le_one.1 ha
  have hb1 : ∀ x, b.count x ≤ 1 := List.nodup_iff_count_le_one.1 hb
  constructor
  · intro x
    unfold fastIntersect
    rw [mem_adjEq hsort, hcount, ← List.count_pos_iff, ← List.count_pos_iff]
    have := ha1 x; have := hb1 x
    omega
  · unfold fastIntersect
    have hs : (adjEq ((a ++ b).insertionSort (· ≤ ·))).Pairwise (· ≤ ·) :=
      hsort.sublist (adjEq_sublist _)
    have hn : (adjEq ((a ++ b).insertionSort (· ≤ ·))).Nodup := by
      rw [List.nodup_iff_count_le_one]
      intro x
      have := count_adjEq_le hsort x
      rw [hcount] at this
      have := ha1 x; have := hb1 x
      omega
    exact (hs.and hn).imp (fun h => lt_of_le_of_ne h.1 h.2)

/-- C15. `fast_setdiff` keeps exactly the elements of `a` that are not in `b`, in the order of `a`. -/
theorem fastSetdiff_spec (a b : List Int) :
    (fastSetdiff a b).Sublist a ∧ (∀ x, x ∈ fastSetdiff a b ↔ x ∈ a ∧ x ∉ b) := by
  unfold fastSetdiff
  exact ⟨List.filter_sublist, fun x => by simp⟩

/-- C15. The hypothesis of `fastIntersect_spec` is needed: a repeated element of one array is
reported as common. -/
theorem fastIntersect_needs_nodup : ∃ a b : List Int, 1 ∈ fastIntersect a b ∧ 1 ∉ b :=
  ⟨[1, 1], [], by decide, by decide⟩

example : fastIntersect [3, 1, 7] [7, 2, 3] = [3, 7] := by decide
example : ([3, 1, 7] : List Int).Nodup ∧ ([7, 2, 3] : List Int).Nodup := by decide

end Verif.Utils
