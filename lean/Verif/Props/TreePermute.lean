import Verif.Model.TreeSurgery
import Verif.Props.DimensionTree
import Verif.Props.DimensionTreeEq
import Verif.Lemmas.TreeLeaf
import Verif.Props.TreeWitness
import Mathlib.Logic.Equiv.Basic
import Mathlib.Data.List.GetD

/-!
# Permutation of the leaves of a tree: C50
-/

namespace Verif.DimTree
open DTree

variable {T : DTree}

/-- A valid tree remains valid when the sons are renamed by the exchange of two unrelated nodes. -/
theorem valid_swap {T' : DTree} (hV : Valid T) {a b : Nat} (ha : IsNode T a) (hb : IsNode T b)
    (hab : ¬ Anc T a b) (hba : ¬ Anc T b a) (hn : T'.n = T.n) (hd : T'.dim2ind = T.dim2ind)
    (he : ∀ i j, Edge T' i j ↔ Edge T i (Equiv.swap a b j)) : Valid T' := by
  have hnode : ∀ i, IsNode T' i ↔ IsNode T i := by intro i; unfold IsNode; rw [hn]
  have hswn : ∀ j, IsNode T j → IsNode T (Equiv.swap a b j) := by
    intro j hj
    rw [Equiv.swap_apply_def]
    split_ifs
    · exact hb
    · exact ha
    · exact hj
  by_cases hab' : a = b
  · subst hab'
    simp only [Equiv.swap_self, Equiv.refl_apply] at he
    have hE : Edge T' = Edge T := by funext i j; exact propext (he i j)
    obtain ⟨r, hr, hall⟩ := hV.rooted
    refine ⟨by rw [hE]; exact hV.unique_parent, ⟨r, ⟨(hnode r).2 hr.1, by rw [hE]; exact hr.2⟩, ?_⟩,
      by rw [hd]; exact hV.nodup, ?_⟩
    · intro j hj
      unfold AncSelf
      rw [hE]
      exact hall j ((hnode j).1 hj)
    · intro x
      rw [hd, hV.leaves x, hnode, hE]
  obtain ⟨r, hr, hall⟩ := hV.rooted
  have hanc : ∀ x y, x ≠ y → AncSelf T x y → Anc T x y := by
    intro x y hxy h
    rcases Relation.reflTransGen_iff_eq_or_transGen.1 h with h | h
    · exact absurd h.symm hxy
    · exact h
  have hra : r ≠ a := by rintro rfl; exact hab (hanc _ _ hab' (hall b hb))
  have hrb : r ≠ b := by rintro rfl; exact hba (hanc _ _ (Ne.symm hab') (hall a ha))
  have key : ∀ j, AncSelf T r j → ¬ AncSelf T a j → ¬ AncSelf T b j → AncSelf T' r j := by
    intro j h
    induction h with
    | refl => intro _ _; exact .refl
    | tail h1 h2 ih =>
      rename_i y z
      intro hna hnb
      refine .tail (ih (fun h => hna (.tail h h2)) (fun h => hnb (.tail h h2))) ?_
      rw [he, Equiv.swap_apply_of_ne_of_ne]
      · exact h2
      · rintro rfl; exact hna .refl
      · rintro rfl; exact hnb .refl
  have hpar : ∀ x, IsNode T x → r ≠ x → ∃ p, Edge T p x := by
    intro x hx hrx
    by_contra hc
    push Not at hc
    exact hrx (root_unique hV hr ⟨hx, hc⟩)
  have hA : AncSelf T' r a := by
    obtain ⟨p, hp⟩ := hpar b hb hrb
    refine .tail (key p (hall p hp.1) ?_ ?_) ((he p a).2 (by rw [Equiv.swap_apply_left]; exact hp))
    · intro h; exact hab (Relation.TransGen.tail'_iff.2 ⟨p, h, hp⟩)
    · intro h; exact Anc.irrefl hV b (Relation.TransGen.tail'_iff.2 ⟨p, h, hp⟩)
  have hB : AncSelf T' r b := by
    obtain ⟨p, hp⟩ := hpar a ha hra
    refine .tail (key p (hall p hp.1) ?_ ?_) ((he p b).2 (by rw [Equiv.swap_apply_right]; exact hp))
    · intro h; exact Anc.irrefl hV a (Relation.TransGen.tail'_iff.2 ⟨p, h, hp⟩)
    · intro h; exact hba (Relation.TransGen.tail'_iff.2 ⟨p, h, hp⟩)
  have hAll : ∀ j, AncSelf T r j → AncSelf T' r j := by
    intro j h
    induction h with
    | refl => exact .refl
    | tail h1 h2 ih =>
      rename_i y z
      by_cases hza : z = a
      · subst hza; exact hA
      by_cases hzb : z = b
      · subst hzb; exact hB
      refine .tail ih ?_
      rw [he, Equiv.swap_apply_of_ne_of_ne hza hzb]
      exact h2
  refine ⟨?_, ⟨r, ⟨(hnode r).2 hr.1, ?_⟩, fun j hj => hAll j (hall j ((hnode j).1 hj))⟩, by rw [hd]; exact hV.nodup, ?_⟩
  · intro i i' j h h'
    rw [he] at h h'
    exact hV.unique_parent _ _ _ h h'
  · intro i h
    rw [he, Equiv.swap_apply_of_ne_of_ne hra hrb] at h
    exact hr.2 i h
  · intro x
    rw [hd, hV.leaves x, hnode]
    refine and_congr_right (fun _ => ⟨fun h j => ?_, fun h j => ?_⟩)
    · rw [he]; exact h _
    · intro hj
      apply h (Equiv.swap a b j)
      rw [he, Equiv.swap_apply_self]
      exact hj

theorem parent_unchanged_swap {T' : DTree} (hV : Valid T) (hV' : Valid T') {a b : Nat} (hn : T'.n = T.n)
    (ha : IsNode T a) (hb : IsNode T b) (he : ∀ i j, Edge T' i j ↔ Edge T i (Equiv.swap a b j)) (j : Nat) (hj : IsNode T j) :
    T'.parent j = T.parent (Equiv.swap a b j) := by
  have hj' : IsNode T' j := by unfold IsNode; rw [hn]; exact hj
  have hs : IsNode T (Equiv.swap a b j) := by
    rw [Equiv.swap_apply_def]
    split_ifs
    · exact hb
    · exact ha
    · exact hj
  by_cases h0 : T.parent (Equiv.swap a b j) = 0
  · rw [h0, parent_eq_zero hj']
    refine ⟨hj', fun i h => ?_⟩
    rw [he] at h
    exact ((parent_eq_zero hs).1 h0).2 i h
  · have := (parent_eq_iff hV hs h0).1 rfl
    rw [← he] at this
    exact parent_eq_of_edge hV'.unique_parent this

/-- The tree computed by `permute_nodes([a, b])`: refused when one node is above the other; otherwise the
two subtrees are exchanged and nothing else changes. -/
theorem swapNodes_spec (hV : Valid T) {a b : Nat} (ha : IsNode T a) (hb : IsNode T b)
    (hab : ¬ Anc T a b) (hba : ¬ Anc T b a) :
    ∃ T', T.swapNodes a b = .ok T' ∧ Valid T' ∧ T'.n = T.n ∧ T'.dim2ind = T.dim2ind ∧
      (∀ i j, Edge T' i j ↔ Edge T i (Equiv.swap a b j)) ∧
      ∀ j, IsNode T j → T'.parent j = T.parent (Equiv.swap a b j) := by
  suffices h : ∃ T', T.swapNodes a b = .ok T' ∧ T'.n = T.n ∧ T'.dim2ind = T.dim2ind ∧
      (∀ i j, Edge T' i j ↔ Edge T i (Equiv.swap a b j)) by
    obtain ⟨T', h1, h2, h3, h4⟩ := h
    have hv := valid_swap hV ha hb hab hba h2 h3 h4
    exact ⟨T', h1, hv, h2, h3, h4, parent_unchanged_swap hV hv h2 ha hb h4⟩
  obtain ⟨la, hla, _, _, _, hla'⟩ := ascendants_spec hV a ha
  obtain ⟨lb, hlb, _, _, _, _⟩ := ascendants_spec hV b hb
  obtain ⟨da, hda, _, hda'⟩ := descendants_spec hV a ha
  unfold swapNodes
  simp only [hla, hlb, hda, bind, Except.bind]
  rw [if_neg (by rw [hla', hda']; rintro (h | h); exacts [hba h, hab h])]
  by_cases hp : T.parent a = T.parent b
  · rw [if_neg (by simpa using hp)]
    refine ⟨T, rfl, rfl, rfl, fun i j => ?_⟩
    have hpe : ∀ i, Edge T i a ↔ Edge T i b := by
      intro i
      by_cases hi : i = 0
      · subst hi
        constructor <;> intro h <;> have := h.1 <;> unfold IsNode at this <;> omega
      rw [← parent_eq_iff hV ha hi, ← parent_eq_iff hV hb hi, hp]
    rw [Equiv.swap_apply_def]
    split_ifs with h1 h2
    · subst h1; exact hpe i
    · subst h2; exact (hpe i).symm
    · rfl
  · rw [if_pos hp]
    refine ⟨_, rfl, rfl, rfl, fun i j => ?_⟩
    have hne : a ≠ b := by rintro rfl; exact hp rfl
    -- neither node is the root
    obtain ⟨r, hr, hall⟩ := hV.rooted
    have hanc : ∀ x y, x ≠ y → AncSelf T x y → Anc T x y := by
      intro x y hxy h
      rcases Relation.reflTransGen_iff_eq_or_transGen.1 h with h | h
      · exact absurd h.symm hxy
      · exact h
    have hra : ¬ IsRoot T a := by
      intro h
      rw [root_unique hV hr h] at hall
      exact hab (hanc _ _ hne (hall b hb))
    have hrb : ¬ IsRoot T b := by
      intro h
      rw [root_unique hV hr h] at hall
      exact hba (hanc _ _ (Ne.symm hne) (hall a ha))
    have hpa0 : T.parent a ≠ 0 := fun h => hra ((parent_eq_zero ha).1 h)
    have hpb0 : T.parent b ≠ 0 := fun h => hrb ((parent_eq_zero hb).1 h)
    have hea := (parent_eq_iff hV ha hpa0).1 rfl
    have heb := (parent_eq_iff hV hb hpb0).1 rfl
    by_cases hi : IsNode T i
    · by_cases hj : IsNode T j
      · have hi0 : i ≠ 0 := by unfold IsNode at hi; omega
        have hsw : IsNode T (Equiv.swap a b j) := by
          rw [Equiv.swap_apply_def]
          split_ifs
          · exact hb
          · exact ha
          · exact hj
        rw [← parent_eq_iff hV hsw hi0]
        have : Edge { T with adj := T.swapAdj a b } i j ↔ T.swapAdj a b (i - 1) (j - 1) = true := by
          unfold Edge
          exact ⟨fun h => h.2.2, fun h => ⟨hi, hj, h⟩⟩
        rw [this]
        have hi' := hi
        have hj' := hj
        have ha' := ha
        have hb' := hb
        have hpa' := hea.1
        have hpb' := heb.1
        unfold IsNode at hi' hj' ha' hb' hpa' hpb'
        have h1 : (i - 1 = T.parent a - 1) ↔ i = T.parent a := by omega
        have h2 : (i - 1 = T.parent b - 1) ↔ i = T.parent b := by omega
        have h3 : (j - 1 = a - 1) ↔ j = a := by omega
        have h4 : (j - 1 = b - 1) ↔ j = b := by omega
        unfold swapAdj setAdj
        simp only [h1, h2, h3, h4]
        rw [Equiv.swap_apply_def]
        by_cases hja : j = a
        · subst hja
          rw [if_pos rfl]
          by_cases hib : i = T.parent b
          · simp [hib]
          · rw [if_neg (by simp [hib]), if_neg (by simp [hne]), if_neg (by simp [hne])]
            by_cases hia : i = T.parent j
            · rw [if_pos ⟨hia, rfl⟩]
              simp only [Bool.false_eq_true, false_iff]
              omega
            · rw [if_neg (by simp [hia])]
              constructor
              · intro h
                exact absurd (parent_eq_of_edge hV.unique_parent ⟨hi, hj, h⟩).symm hia
              · intro h; exact absurd h.symm hib
        · rw [if_neg hja, if_neg (by simp [hja])]
          by_cases hjb : j = b
          · subst hjb
            rw [if_pos rfl]
            by_cases hib : i = T.parent j
            · rw [if_pos ⟨hib, rfl⟩]
              simp only [Bool.false_eq_true, false_iff]
              omega
            · rw [if_neg (by simp [hib])]
              by_cases hia : i = T.parent a
              · simp [hia]
              · rw [if_neg (by simp [hia]), if_neg (by simp [hia])]
                constructor
                · intro h
                  exact absurd (parent_eq_of_edge hV.unique_parent ⟨hi, hj, h⟩).symm hib
                · intro h; exact absurd h.symm hia
          · rw [if_neg hjb, if_neg (by simp [hjb]), if_neg (by simp [hjb]), if_neg (by simp [hja]), parent_eq_iff hV hj hi0]
            exact ⟨fun h => ⟨hi, hj, h⟩, fun h => h.2.2⟩
      · refine ⟨fun h => absurd h.2.1 hj, fun h => absurd ?_ hj⟩
        have := h.2.1
        rw [Equiv.swap_apply_def] at this
        split_ifs at this with h1 h2
        · subst h1; exact ha
        · subst h2; exact hb
        · exact this
    · exact ⟨fun h => absurd h.1 hi, fun h => absurd h.1 hi⟩

/-- `permute_nodes([a, b])` raises `ValueError` when one of the nodes is above the other. -/
theorem swapNodes_refused (hV : Valid T) {a b : Nat} (ha : IsNode T a) (hb : IsNode T b)
    (h : Anc T a b ∨ Anc T b a) : T.swapNodes a b = .error .valueError := by
  obtain ⟨la, hla, _, _, _, hla'⟩ := ascendants_spec hV a ha
  obtain ⟨lb, hlb, _, _, _, _⟩ := ascendants_spec hV b hb
  obtain ⟨da, hda, _, hda'⟩ := descendants_spec hV a ha
  unfold swapNodes
  simp only [hla, hlb, hda, bind, Except.bind]
  rw [if_pos (by rw [hla', hda']; exact h.symm)]

/-! ## Decomposition in transpositions -/

theorem length_swapAt (l : List Nat) (a b : Nat) : (swapAt l a b).length = l.length := by simp [swapAt]

theorem getD_swapAt (l : List Nat) (a b : Nat) (ha : a < l.length) (hb : b < l.length) (k : Nat) :
    (swapAt l a b).getD k 0 = l.getD (Equiv.swap a b k) 0 := by
  unfold swapAt
  rw [List.getD_eq_getElem?_getD, List.getElem?_set, Equiv.swap_apply_def]
  by_cases hk : b = k
  · subst hk
    rw [if_pos rfl, if_pos (by simpa using hb)]
    by_cases hba : b = a
    · subst hba; simp
    · rw [if_neg hba, if_pos rfl]; rfl
  · rw [if_neg hk, List.getElem?_set]
    by_cases hk' : a = k
    · subst hk'
      rw [if_pos rfl, if_pos ha, if_pos rfl]; rfl
    · rw [if_neg hk', if_neg (Ne.symm hk'), if_neg (Ne.symm hk), List.getD_eq_getElem?_getD]

theorem swapAt_map (l : List Nat) (g : Nat → Nat) (a b : Nat) (ha : a < l.length) (hb : b < l.length) :
    (swapAt l a b).map g = swapAt (l.map g) a b := by
  apply List.ext_getElem
  · simp [swapAt]
  intro k h1 h2
  have h3 : ∀ (m : List Nat) (hk : k < m.length), m[k] = m.getD k 0 := by
    intro m hk; rw [List.getD_eq_getElem _ _ hk]
  rw [h3, h3, getD_swapAt _ _ _ (by simpa using ha) (by simpa using hb)]
  have hk : k < l.length := by simpa [swapAt] using h1
  have hs : Equiv.swap a b k < l.length := by
    rw [Equiv.swap_apply_def]; split_ifs <;> assumption
  rw [List.getD_eq_getElem _ _ (by simpa using h1), List.getElem_map, List.getD_eq_getElem _ _ (by simpa using hs),
    List.getElem_map, h3, getD_swapAt _ _ _ ha hb, List.getD_eq_getElem _ _ hs]

theorem swapAt_perm (l : List Nat) (a b : Nat) (ha : a < l.length) (hb : b < l.length) : (swapAt l a b).Perm l := by
  have h : swapAt l a b = (List.finRange l.length).map (fun k => l.get (Equiv.swap ⟨a, ha⟩ ⟨b, hb⟩ k)) := by
    apply List.ext_getElem
    · simp [swapAt]
    intro k h1 h2
    have hk : k < l.length := by simpa [swapAt] using h1
    have : (swapAt l a b)[k] = (swapAt l a b).getD k 0 := by rw [List.getD_eq_getElem _ _ h1]
    rw [this, getD_swapAt _ _ _ ha hb]
    simp only [List.getElem_map, List.getElem_finRange]
    simp only [Equiv.swap_apply_def, Fin.ext_iff, Fin.val_cast]
    split_ifs
    · rw [List.getD_eq_getElem _ _ hb]; rfl
    · rw [List.getD_eq_getElem _ _ ha]; rfl
    · rw [List.getD_eq_getElem _ _ hk]; rfl
  rw [h]
  have h2 : l = (List.finRange l.length).map (fun k => l.get k) := by
    apply List.ext_getElem <;> simp
  conv_rhs => rw [h2]
  have h3 : (List.finRange l.length).map (fun k => l.get (Equiv.swap ⟨a, ha⟩ ⟨b, hb⟩ k)) =
      ((List.finRange l.length).map (Equiv.swap ⟨a, ha⟩ ⟨b, hb⟩)).map l.get := by
    rw [List.map_map]; rfl
  rw [h3]
  apply List.Perm.map
  rw [List.perm_ext_iff_of_nodup ((List.nodup_finRange _).map (Equiv.injective _)) (List.nodup_finRange _)]
  intro x
  simp only [List.mem_finRange, iff_true, List.mem_map, true_and]
  exact ⟨(Equiv.swap _ _).symm x, Equiv.apply_symm_apply _ _⟩

/-- Exchange, in turn, the entries at the listed pairs of positions. -/
def applySwaps (l : List Nat) (es : List (Nat × Nat)) : List Nat := es.foldl (fun l e => swapAt l e.1 e.2) l

theorem length_applySwaps (es : List (Nat × Nat)) : ∀ l, (applySwaps l es).length = l.length := by
  induction es with
  | nil => intro l; rfl
  | cons e es ih =>
    intro l
    show (applySwaps (swapAt l e.1 e.2) es).length = _
    rw [ih, length_swapAt]

theorem applySwaps_map (g : Nat → Nat) (es : List (Nat × Nat)) : ∀ l, (∀ e ∈ es, e.1 < l.length ∧ e.2 < l.length) →
    (applySwaps l es).map g = applySwaps (l.map g) es := by
  induction es with
  | nil => intro l _; rfl
  | cons e es ih =>
    intro l h
    have he := h e (by simp)
    show (applySwaps (swapAt l e.1 e.2) es).map g = applySwaps (swapAt (l.map g) e.1 e.2) es
    rw [ih _ (fun e' he' => by rw [length_swapAt]; exact h e' (by simp [he'])), swapAt_map _ _ _ _ he.1 he.2]

theorem elemPerm_ok (n : Nat) : ∀ (m k : Nat) (perm : List Nat), n - k ≤ m → perm.Perm (List.range n) →
    (∀ j < k, perm.getD j 0 = j) → ∀ fuel, m < fuel →
    ∃ es, elemPerm fuel perm = .ok (es, List.range n) ∧ es.length ≤ n - k - 1 ∧
      (∀ e ∈ es, e.1 < n ∧ e.2 < n ∧ e.1 ≠ e.2) ∧ applySwaps perm es = List.range n := by
  intro m
  induction m with
  | zero =>
    intro k perm hm hp hk fuel hf
    have hlen : perm.length = n := by rw [hp.length_eq, List.length_range]
    have hid : perm = List.range n := by
      apply List.ext_getElem (by simp [hlen])
      intro i h1 h2
      have := hk i (by omega)
      rw [List.getD_eq_getElem _ _ h1] at this
      rw [this, List.getElem_range]
    obtain ⟨f, rfl⟩ : ∃ f, fuel = f + 1 := ⟨fuel - 1, by omega⟩
    have : firstMoved perm = none := by
      unfold firstMoved
      rw [List.find?_eq_none]
      intro i hi
      rw [List.mem_range] at hi
      have := hk i (by omega)
      simp only [bne_iff_ne, ne_eq, this, not_true_eq_false, not_false_eq_true]
    exact ⟨[], by rw [elemPerm, this, hid], by simp, by simp, hid⟩
  | succ m ih =>
    intro k perm hm hp hk fuel hf
    have hlen : perm.length = n := by rw [hp.length_eq, List.length_range]
    obtain ⟨f, rfl⟩ : ∃ f, fuel = f + 1 := ⟨fuel - 1, by omega⟩
    have hnd : perm.Nodup := hp.nodup_iff.2 List.nodup_range
    rcases hfm : firstMoved perm with _ | i
    · have hid : perm = List.range n := by
        unfold firstMoved at hfm
        rw [List.find?_eq_none] at hfm
        apply List.ext_getElem (by simp [hlen])
        intro i h1 h2
        have := hfm i (by rw [List.mem_range]; exact h1)
        rw [List.getD_eq_getElem _ _ h1] at this
        rw [List.getElem_range]
        simpa using this
      exact ⟨[], by rw [elemPerm, hfm, hid], by simp, by simp, hid⟩
    · unfold firstMoved at hfm
      have hfm' := hfm
      rw [List.find?_eq_some_iff_getElem] at hfm'
      obtain ⟨hne, q, hq, hqi, hlt⟩ := hfm'
      have hqi' : q = i := by simpa using hqi
      subst hqi'
      have hq' : q < perm.length := by simpa using hq
      have hqn : q < n := by omega
      have hprefix : ∀ j < q, perm.getD j 0 = j := by
        intro j hj
        have := hlt j hj
        simpa using this
      have hmem : q ∈ perm := hp.mem_iff.2 (List.mem_range.2 hqn)
      have hne' : perm.getD q 0 ≠ q := by simpa using hne
      have hkq : k ≤ q := by
        by_contra hc
        exact hne' (hk q (by omega))
      have ha : perm.idxOf q < perm.length := List.idxOf_lt_length_iff.2 hmem
      have hga : perm.getD (perm.idxOf q) 0 = q := by
        rw [List.getD_eq_getElem _ _ ha, List.getElem_idxOf ha]
      have hb : perm.idxOf (perm.getD q 0) = q := by
        rw [List.getD_eq_getElem _ _ hq']
        exact hnd.idxOf_getElem q hq'
      have haq : perm.idxOf q ≠ q := by
        intro h; rw [h] at hga; exact hne' hga
      have haq' : q < perm.idxOf q := by
        by_contra hc
        have := hprefix (perm.idxOf q) (by omega)
        rw [hga] at this
        exact haq this.symm
      have hsw : ∀ j < q + 1, (swapAt perm (perm.idxOf q) q).getD j 0 = j := by
        intro j hj
        rw [getD_swapAt _ _ _ ha hq', Equiv.swap_apply_def, if_neg (by omega)]
        by_cases hjq : j = q
        · rw [if_pos hjq, hga, hjq]
        · rw [if_neg hjq]; exact hprefix j (by omega)
      obtain ⟨es, h1, h2, h3, h4⟩ := ih (q + 1) (swapAt perm (perm.idxOf q) q) (by omega)
        ((swapAt_perm _ _ _ ha hq').trans hp) hsw f (by omega)
      refine ⟨(perm.idxOf q, q) :: es, ?_, ?_, ?_, h4⟩
      · rw [elemPerm]
        unfold firstMoved
        rw [hfm]
        simp only [hmem, if_true, hb, h1, bind, Except.bind]
      · simp only [List.length_cons]; omega
      · intro e he
        rcases List.mem_cons.1 he with rfl | he
        · exact ⟨by simpa [hlen] using ha, hqn, haq⟩
        · exact h3 e he

/-- C50. For every permutation `perm` of `0..n-1` the loop of `permute_leaves` terminates after at most
`n - 1` exchanges of distinct positions, and these exchanges sort `perm` (the argument array, modified in
place, ends as `arange(n)`). -/
theorem elemPerm_spec (perm : List Nat) (hp : perm.Perm (List.range perm.length)) :
    ∃ es, elemPerm (perm.length + 1) perm = .ok (es, List.range perm.length) ∧ es.length ≤ perm.length - 1 ∧
      (∀ e ∈ es, e.1 < perm.length ∧ e.2 < perm.length ∧ e.1 ≠ e.2) ∧
      es.foldl (fun l e => swapAt l e.1 e.2) perm = List.range perm.length :=
  elemPerm_ok perm.length perm.length 0 perm (by omega) hp (by omega) _ (by omega)

theorem leaf_not_anc (hV : Valid T) {x y : Nat} (hx : x ∈ T.dim2ind) : ¬ Anc T x y := by
  intro h
  obtain ⟨c, hc, _⟩ := Relation.TransGen.head'_iff.1 h
  exact ((hV.leaves x).1 hx).2 c hc

theorem swaps_tree (n : Nat) (es : List (Nat × Nat)) (hes : ∀ e ∈ es, e.1 < n ∧ e.2 < n) : ∀ (T : DTree), Valid T →
    n ≤ T.dim2ind.length →
    ∃ T', es.foldlM (leafSwap T.dim2ind) T = .ok T' ∧ Valid T' ∧ T'.n = T.n ∧ T'.dim2ind = T.dim2ind ∧
      (T.dim2ind.take n).map T'.parent = applySwaps ((T.dim2ind.take n).map T.parent) es ∧
      ∀ x, IsNode T x → x ∉ T.dim2ind.take n → T'.parent x = T.parent x := by
  induction es with
  | nil => intro T hV _; exact ⟨T, rfl, hV, rfl, rfl, rfl, fun _ _ _ => rfl⟩
  | cons e es ih =>
    intro T hV hn
    have he := hes e (by simp)
    have h1 : e.1 < T.dim2ind.length := by omega
    have h2 : e.2 < T.dim2ind.length := by omega
    have hx := List.getElem_mem h1
    have hy := List.getElem_mem h2
    obtain ⟨T1, hs1, hs2, hs3, hs4, hs5, hs6⟩ := swapNodes_spec hV ((hV.leaves _).1 hx).1 ((hV.leaves _).1 hy).1
      (leaf_not_anc hV hx) (leaf_not_anc hV hy)
    obtain ⟨T', ht1, ht2, ht3, ht4, ht5, ht6⟩ := ih (fun e' he' => hes e' (by simp [he'])) T1 hs2 (by rw [hs4]; exact hn)
    refine ⟨T', ?_, ht2, ht3.trans hs3, ht4.trans hs4, ?_, ?_⟩
    · rw [List.foldlM_cons]
      have : leafSwap T.dim2ind T e = .ok T1 := by
        unfold leafSwap
        rw [List.getElem?_eq_getElem h1, List.getElem?_eq_getElem h2]
        exact hs1
      rw [this]
      rw [hs4] at ht1
      exact ht1
    · rw [hs4] at ht5
      rw [ht5]
      show applySwaps _ es = applySwaps (swapAt _ e.1 e.2) es
      congr 1
      have hl : (T.dim2ind.take n).length = n := by rw [List.length_take]; omega
      apply List.ext_getElem
      · simp [swapAt]
      intro k hk1 hk2
      have hk : k < n := by
        rw [List.length_map, hl] at hk1; exact hk1
      have hkd : k < T.dim2ind.length := by omega
      have : ∀ (m : List Nat) (hk : k < m.length), m[k] = m.getD k 0 := by
        intro m hk; rw [List.getD_eq_getElem _ _ hk]
      rw [this _ hk2, getD_swapAt _ _ _ (by simp; omega) (by simp; omega)]
      have hsk : Equiv.swap e.1 e.2 k < n := by
        rw [Equiv.swap_apply_def]; split_ifs <;> omega
      rw [List.getElem_map, List.getElem_take, hs6 _ ((hV.leaves _).1 (List.getElem_mem hkd)).1,
        List.getD_eq_getElem _ _ (by simp; omega), List.getElem_map, List.getElem_take]
      congr 1
      rw [Equiv.swap_apply_def]
      have hinj : ∀ i j (hi : i < T.dim2ind.length) (hj : j < T.dim2ind.length), T.dim2ind[i] = T.dim2ind[j] ↔ i = j :=
        fun i j hi hj => hV.nodup.getElem_inj_iff
      simp only [hinj, Equiv.swap_apply_def]
      split_ifs <;> rfl
    · intro x hx hxt
      rw [ht6 x (by unfold IsNode; rw [hs3]; exact hx) (by rw [hs4]; exact hxt), hs6 x hx, Equiv.swap_apply_of_ne_of_ne]
      · rintro rfl
        exact hxt (by rw [List.mem_take_iff_getElem]; exact ⟨e.1, by omega, rfl⟩)
      · rintro rfl
        exact hxt (by rw [List.mem_take_iff_getElem]; exact ⟨e.2, by omega, rfl⟩)

/-- C50. `permute_leaves(perm)` for a permutation `perm` of the first `n` dimensions (of all of them when
`n` is the order): it succeeds; the leaf of dimension `perm[d]` takes the place of the leaf of dimension `d`
in the tree; all other nodes keep their parents; the result is a valid tree with the same leaves; an
`ndarray` argument is overwritten with `arange(n)`. Missing: the computation of the node tensors. -/
theorem permuteLeaves_partial (hV : Valid T) (perm : List Nat) (hp : perm.Perm (List.range perm.length))
    (hn : perm.length ≤ T.dim2ind.length) :
    ∃ T', T.permuteLeaves perm = .ok (T', List.range perm.length) ∧ Valid T' ∧ T'.n = T.n ∧ T'.dim2ind = T.dim2ind ∧
      (∀ d q x y : Nat, perm[d]? = some q → T.dim2ind[d]? = some x → T.dim2ind[q]? = some y → T'.parent y = T.parent x) ∧
      ∀ x, IsNode T x → x ∉ T.dim2ind.take perm.length → T'.parent x = T.parent x := by
  obtain ⟨es, he1, _, he3, he4⟩ := elemPerm_spec perm hp
  by_cases hs : perm = sortNat perm
  · have hid : perm = List.range perm.length := by
      rw [hs]
      refine (List.Perm.eq_of_pairwise (le := (· ≤ ·)) ?_ ?_ ?_ ?_)
      · intro a b _ _ h1 h2; exact le_antisymm h1 h2
      · exact List.pairwise_insertionSort _ _
      · exact List.pairwise_le_range
      · have := (List.perm_insertionSort (· ≤ ·) perm).trans hp
        unfold sortNat
        rw [(List.perm_insertionSort (· ≤ ·) perm).length_eq]
        exact this
    refine ⟨T, ?_, hV, rfl, rfl, ?_, fun _ _ _ => rfl⟩
    · unfold permuteLeaves
      rw [if_pos hs]
      congr 2
    · intro d q x y h1 h2 h3
      rw [hid] at h1
      have : d = q := by
        have hd := (List.getElem?_eq_some_iff.1 h1)
        obtain ⟨_, h⟩ := hd
        simpa using h
      subst this
      rw [h2] at h3
      cases h3
      rfl
  · obtain ⟨T', ht1, ht2, ht3, ht4, ht5, ht6⟩ := swaps_tree perm.length es (fun e he => ⟨(he3 e he).1, (he3 e he).2.1⟩) T hV hn
    refine ⟨T', ?_, ht2, ht3, ht4, ?_, ht6⟩
    · unfold permuteLeaves
      rw [if_neg hs, he1]
      simp only [bind, Except.bind, ht1]
    · intro d q x y h1 h2 h3
      -- the parents of the leaves, as a function of the entries of `perm`
      obtain ⟨g, hg⟩ : ∃ g : Nat → Nat, (T.dim2ind.take perm.length).map T.parent = perm.map g := by
        refine ⟨fun q => T.parent (T.dim2ind.getD (perm.idxOf q) 0), ?_⟩
        apply List.ext_getElem
        · simp; omega
        intro k hk1 hk2
        have hk : k < perm.length := by simpa using hk2
        rw [List.getElem_map, List.getElem_map, List.getElem_take]
        have hnd : perm.Nodup := hp.nodup_iff.2 List.nodup_range
        rw [hnd.idxOf_getElem k hk, List.getD_eq_getElem _ _ (by omega)]
      have hq : perm[d]? = some q := h1
      obtain ⟨hd, hdq⟩ := List.getElem?_eq_some_iff.1 h1
      have hqn : q < perm.length := by
        have : q ∈ perm := List.mem_of_getElem? h1
        rw [hp.mem_iff, List.mem_range] at this
        exact this
      rw [hg, ← applySwaps_map g es perm (fun e he => ⟨(he3 e he).1, (he3 e he).2.1⟩)] at ht5
      have he4' : applySwaps perm es = List.range perm.length := he4
      rw [he4'] at ht5
      have e1 := congrArg (fun l => l[q]?) ht5
      have e2 := congrArg (fun l => l[d]?) hg
      simp only [List.getElem?_map, List.getElem?_take, hqn, hd, if_true, h2, h3, h1, List.getElem?_range,
        Option.map_some, Option.some.injEq] at e1 e2
      rw [e1, e2]

/-- A concrete case: the cyclic permutation of the leaves 3, 4, 5 of a tree with 5 nodes. -/
example : ∃ T', (TreeBased.exTree).permuteLeaves [1, 2, 0] = .ok (T', [0, 1, 2]) ∧ T'.parent 4 = 2 ∧ T'.parent 5 = 2 ∧
    T'.parent 3 = 1 := by
  obtain ⟨T', h1, _, _, h4, h5, _⟩ := permuteLeaves_partial TreeBased.exTree_valid [1, 2, 0] (by decide) (by decide)
  refine ⟨T', h1, ?_, ?_, ?_⟩
  · rw [h5 0 1 3 4 rfl rfl rfl]; decide
  · rw [h5 1 2 4 5 rfl rfl rfl]; decide
  · rw [h5 2 0 5 3 rfl rfl rfl]; decide

/-- The permutations numbered from 1, as the documentation describes them, are refused with `IndexError`
(or ignored when they are sorted). -/
theorem permuteLeaves_one_based : ∃ T perm, Valid T ∧ perm.Perm ((List.range T.dim2ind.length).map (· + 1)) ∧
    T.permuteLeaves perm = .error .indexError := by
  refine ⟨TreeBased.exTree, [2, 1, 3], TreeBased.exTree_valid, by decide, ?_⟩
  unfold permuteLeaves
  rw [if_neg (by decide)]
  rfl

end Verif.DimTree
