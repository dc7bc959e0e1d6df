import Verif.Lemmas.TreePart

/-!
# Absorption of an only child by its parent
-/

namespace Verif.TreeBased

open Verif.Arr Verif.DimTree Verif.DimTree.DTree Finset

variable {R : Type}

section psum

variable [CommSemiring R] {act : Nat → Bool} {ρ dim : Nat → Nat} {V : Nat → List Nat → List Nat → R} {idx : List Nat}

theorem psum_len (cs : List Nat) {k k' : List Nat → R} (h : ∀ t, t.length = cs.length → k t = k' t) :
    psum act ρ dim V idx cs k = psum act ρ dim V idx cs k' := by
  induction cs generalizing k k' with
  | nil => exact h [] rfl
  | cons c cs ih =>
    unfold psum
    split
    · exact sum_congr rfl (fun s _ => by rw [ih (fun t ht => h (s :: t) (by simp [ht]))])
    · exact ih (fun t ht => h _ (by simp [ht]))

theorem psum_sum (cs : List Nat) {ι : Type} (S : Finset ι) (k : ι → List Nat → R) :
    psum act ρ dim V idx cs (fun t => ∑ i ∈ S, k i t) = ∑ i ∈ S, psum act ρ dim V idx cs (k i) := by
  induction cs generalizing k with
  | nil => rfl
  | cons c cs ih =>
    unfold psum
    split
    · simp only [ih, mul_sum]
      rw [sum_comm]
    · exact ih _

theorem psum_mul (cs : List Nat) (a : R) (k : List Nat → R) :
    psum act ρ dim V idx cs (fun t => k t * a) = psum act ρ dim V idx cs k * a := by
  induction cs generalizing k with
  | nil => rfl
  | cons c cs ih =>
    unfold psum
    split
    · simp only [ih, sum_mul, mul_assoc]
    · exact ih _

end psum

theorem idxOf_map_inj {l : List Nat} (f : Nat → Nat) (hnd : l.Nodup) (hinj : ∀ a ∈ l, ∀ b ∈ l, f a = f b → a = b) {c : Nat}
    (hc : c ∈ l) : (l.map f).idxOf (f c) = l.idxOf c := by
  have hnd' : (l.map f).Nodup := (List.nodup_map_iff_inj_on hnd).2 hinj
  have h1 := List.idxOf_lt_length_of_mem hc
  have h2 := List.idxOf_lt_length_of_mem (List.mem_map_of_mem (f := f) hc)
  refine (hnd'.getElem_inj_iff (hi := h2) (hj := by simpa using h1)).1 ?_
  rw [List.getElem_idxOf h2, List.getElem_map, List.getElem_idxOf h1]

/-- The data of the absorption of the only child `i` of `p`: `y'` is the tensor afterwards. -/
structure Absorb [CommSemiring R] (y y' : TBT R) (K : List Nat) (act : Nat → Bool) (ρ : Nat → Nat) (i p : Nat) : Prop where
  mem : i ∈ K
  pmem : p ∈ K
  only : kids y.tree K p = [i]
  n : y'.tree.n = y.tree.n
  adj : ∀ a ∈ K, ∀ b ∈ K, a ≠ i → b ≠ i →
    y'.tree.adj (a - 1) (b - 1) = if a = p then y.tree.adj (i - 1) (b - 1) else y.tree.adj (a - 1) (b - 1)
  d2i : y'.tree.dim2ind = y.tree.dim2ind.map (fun c => if c = i then p else c)
  same : ∀ a ∈ K, a ≠ i → a ≠ p → y'.tensors a = y.tensors a
  shape : (y'.tensors p).shape = if act i then (y.tensors i).shape.dropLast ++ (y.tensors p).shape.tail else (y.tensors p).shape
  on : act i = true → ∀ u w, u.length + 1 = (y.tensors i).shape.length → w.length + 1 = (y.tensors p).shape.length →
    (y'.tensors p).get (u ++ w) = ∑ s ∈ range (ρ i), (y.tensors i).get (u ++ [s]) * (y.tensors p).get (s :: w)
  off : ¬ act i = true → (y'.tensors p).get = (y.tensors p).get

namespace Absorb

variable [CommSemiring R] {y y' : TBT R} {K : List Nat} {r : Nat} {act : Nat → Bool} {ρ ν : Nat → Nat} {E : List Nat} {i p : Nat}
  (a : Absorb y y' K act ρ i p) (h : Part y K r act ρ ν E)

include a h

theorem edge : Edge y.tree p i := ((mem_kids h.isNode a.pmem).1 (by rw [a.only]; simp)).2

theorem no_loop : ¬ Edge y.tree i i := by
  intro he
  have : ∀ j, Relation.ReflTransGen (fun a b => a ∈ K ∧ b ∈ K ∧ Edge y.tree a b) r j → j = i → False := by
    intro j hj
    induction hj with
    | refl => rintro rfl; exact h.top _ a.mem he
    | tail h1 h2 ih =>
      rintro rfl
      exact ih (h.parent _ h2.1 _ a.mem _ a.mem h2.2.2 he)
  exact this i (h.reach i a.mem) rfl

theorem p_ne : p ≠ i := by
  rintro rfl
  exact a.no_loop h (a.edge h)

theorem i_ne_root : i ≠ r := h.kid_ne_root a.pmem (by rw [a.only]; simp)

theorem p_internal : p ∉ y.tree.dim2ind := fun hl => ((h.leaves p).1 hl).2 i a.mem (a.edge h)

theorem edge_iff {b c : Nat} (hb : b ∈ K) (hc : c ∈ K) (hbi : b ≠ i) (hci : c ≠ i) :
    Edge y'.tree b c ↔ if b = p then Edge y.tree i c else Edge y.tree b c := by
  have h1 := h.isNode b hb
  have h2 := h.isNode c hc
  have h3 := h.isNode i a.mem
  have h1' : IsNode y'.tree b := by unfold IsNode at h1 ⊢; rw [a.n]; exact h1
  have h2' : IsNode y'.tree c := by unfold IsNode at h2 ⊢; rw [a.n]; exact h2
  unfold Edge
  rw [a.adj b hb c hc hbi hci]
  by_cases e : b = p
  · rw [if_pos e, if_pos e]; simp only [h1', h2', h2, h3, true_and]
  · rw [if_neg e, if_neg e]; simp only [h1', h2', h2, h1, true_and]

theorem kids_p : kids y'.tree (K.filter (· ≠ i)) p = kids y.tree K i := by
  unfold kids
  rw [List.filter_filter]
  apply List.filter_congr
  intro c hc
  by_cases hci : c = i
  · subst hci
    have := a.no_loop h
    unfold Edge at this
    have hn := h.isNode c hc
    simp only [hn, true_and] at this
    simp [this]
  · rw [a.adj p a.pmem c hc (a.p_ne h) hci, if_pos rfl]
    simp [hci]

theorem kids_other {b : Nat} (hb : b ∈ K) (hbi : b ≠ i) (hbp : b ≠ p) :
    kids y'.tree (K.filter (· ≠ i)) b = kids y.tree K b := by
  unfold kids
  rw [List.filter_filter]
  apply List.filter_congr
  intro c hc
  by_cases hci : c = i
  · subst hci
    have : ¬ Edge y.tree b c := fun he => hbp (h.parent b hb p a.pmem c hc he (a.edge h))
    unfold Edge at this
    have hn := h.isNode c hc
    have hn' := h.isNode b hb
    simp only [hn, hn', true_and] at this
    simp [this]
  · rw [a.adj b hb c hc hbi hci, if_neg hbp]
    simp [hci]

theorem mem_d2i (c : Nat) : c ∈ y'.tree.dim2ind ↔ (c ∈ y.tree.dim2ind ∧ c ≠ i) ∨ (c = p ∧ i ∈ y.tree.dim2ind) := by
  rw [a.d2i, List.mem_map]
  constructor
  · rintro ⟨b, hb, rfl⟩
    by_cases e : b = i
    · subst e; rw [if_pos rfl]; exact .inr ⟨rfl, hb⟩
    · rw [if_neg e]; exact .inl ⟨hb, e⟩
  · rintro (⟨h1, h2⟩ | ⟨rfl, h2⟩)
    · exact ⟨c, h1, by rw [if_neg h2]⟩
    · exact ⟨i, h2, by rw [if_pos rfl]⟩

theorem d2i_inj : ∀ b ∈ y.tree.dim2ind, ∀ c ∈ y.tree.dim2ind, (if b = i then p else b) = (if c = i then p else c) → b = c := by
  intro b hb c hc e
  have hp := a.p_internal h
  by_cases e1 : b = i <;> by_cases e2 : c = i
  · rw [e1, e2]
  · rw [if_pos e1, if_neg e2] at e; subst e; exact absurd hc hp
  · rw [if_neg e1, if_pos e2] at e; subst e; exact absurd hb hp
  · rw [if_neg e1, if_neg e2] at e; exact e

theorem dimOf_other {c : Nat} (hc : c ∈ y.tree.dim2ind) (hci : c ≠ i) : dimOf y'.tree c = dimOf y.tree c := by
  have := idxOf_map_inj (fun c => if c = i then p else c) h.nodup (a.d2i_inj h) hc
  unfold dimOf
  rw [a.d2i]
  simp only [if_neg hci] at this
  exact this

theorem dimOf_p (hi : i ∈ y.tree.dim2ind) : dimOf y'.tree p = dimOf y.tree i := by
  have := idxOf_map_inj (fun c => if c = i then p else c) h.nodup (a.d2i_inj h) hi
  unfold dimOf
  rw [a.d2i]
  simp only [if_true] at this
  exact this

theorem shape_p : (y.tensors p).shape = (if act i then ρ i else ν i) :: (if p = r then E else [ρ p]) := by
  rw [h.node p a.pmem (a.p_internal h), a.only]
  rfl

theorem reach_fwd {b j : Nat} (hb : b ≠ i) (hj : RK y.tree K b j) : RK y'.tree (K.filter (· ≠ i)) b (if j = i then p else j) := by
  have hpne := a.p_ne h
  have hmem : ∀ b, b ∈ K.filter (· ≠ i) ↔ b ∈ K ∧ b ≠ i := by intro b; rw [List.mem_filter]; simp
  induction hj with
  | refl => rw [if_neg hb]; exact .refl
  | tail h1 h2 ih =>
    rename_i b c
    obtain ⟨hbK, hcK, he⟩ := h2
    by_cases hci : c = i
    · subst hci
      have : b = p := h.parent b hbK p a.pmem c hcK he (a.edge h)
      subst this
      rw [if_pos rfl]
      rwa [if_neg hpne] at ih
    · rw [if_neg hci]
      refine .tail ih ⟨?_, (hmem c).2 ⟨hcK, hci⟩, ?_⟩
      · split
        · exact (hmem p).2 ⟨a.pmem, hpne⟩
        · rename_i hbi; exact (hmem b).2 ⟨hbK, hbi⟩
      · by_cases hbi : b = i
        · rw [if_pos hbi, a.edge_iff h a.pmem hcK hpne hci, if_pos rfl]
          rw [hbi] at he; exact he
        · rw [if_neg hbi, a.edge_iff h hbK hcK hbi hci, if_neg]
          · exact he
          · rintro rfl
            have : c ∈ kids y.tree K b := (mem_kids h.isNode hbK).2 ⟨hcK, he⟩
            rw [a.only] at this
            exact hci (by simpa using this)

theorem reach_bwd {b j : Nat} (hj : RK y'.tree (K.filter (· ≠ i)) b j) : RK y.tree K b j := by
  have hpne := a.p_ne h
  induction hj with
  | refl => exact .refl
  | tail h1 h2 ih =>
    rename_i b c
    obtain ⟨hbK, hcK, he⟩ := h2
    obtain ⟨hbK, hbi⟩ := List.mem_filter.1 hbK
    obtain ⟨hcK, hci⟩ := List.mem_filter.1 hcK
    rw [a.edge_iff h hbK hcK (by simpa using hbi) (by simpa using hci)] at he
    by_cases e : b = p
    · rw [if_pos e] at he
      refine .tail (.tail ih ⟨hbK, a.mem, ?_⟩) ⟨a.mem, hcK, he⟩
      rw [e]; exact a.edge h
    · rw [if_neg e] at he
      exact .tail ih ⟨hbK, hcK, he⟩

/-- The leaves below the nodes that remain. -/
theorem reach_leaf {b c : Nat} (hb : b ≠ i) :
    RK y'.tree (K.filter (· ≠ i)) b (if c = i then p else c) ↔ RK y.tree K b c := by
  constructor
  · intro hbc
    have := a.reach_bwd h hbc
    by_cases e : c = i
    · rw [if_pos e] at this
      rw [e]
      exact .tail this ⟨a.pmem, a.mem, a.edge h⟩
    · rwa [if_neg e] at this
  · exact a.reach_fwd h hb

/-- `i` and `p` have the same leaves below them. -/
theorem reach_parent {c : Nat} (hc : c ∈ y.tree.dim2ind) : RK y.tree K p c ↔ RK y.tree K i c := by
  constructor
  · intro hpc
    rcases Relation.ReflTransGen.cases_head hpc with e | ⟨d, hd, hdc⟩
    · exact absurd (e ▸ hc) (a.p_internal h)
    · have : d ∈ kids y.tree K p := (mem_kids h.isNode a.pmem).2 ⟨hd.2.1, hd.2.2⟩
      rw [a.only, List.mem_singleton] at this
      rw [← this]; exact hdc
  · intro hic
    exact .head ⟨a.pmem, a.mem, a.edge h⟩ hic

theorem part : Part y' (K.filter (· ≠ i)) r act ρ (upd ν p (ν i)) E := by
  have hpne := a.p_ne h
  have hmem : ∀ b, b ∈ K.filter (· ≠ i) ↔ b ∈ K ∧ b ≠ i := by intro b; rw [List.mem_filter]; simp
  have hpl := a.p_internal h
  have hap := h.internal p a.pmem hpl
  have hK : ∀ b ∈ K.filter (· ≠ i), b ∈ K := fun b hb => ((hmem b).1 hb).1
  have hK' : ∀ b ∈ K.filter (· ≠ i), b ≠ i := fun b hb => ((hmem b).1 hb).2
  have hν : ∀ c, ¬ act c = true → upd ν p (ν i) c = ν c := by
    intro c hc
    unfold upd
    rw [if_neg (by rintro rfl; exact hc hap)]
  have hleafne : ∀ c, c ∈ y'.tree.dim2ind → c ≠ p → c ∈ y.tree.dim2ind ∧ c ≠ i := by
    intro c hc hcp
    rcases (a.mem_d2i h c).1 hc with h1 | ⟨h1, _⟩
    · exact h1
    · exact absurd h1 hcp
  refine ⟨?_, ?_, ?_, ?_, ?_, ?_, ?_, ?_, ?_, ?_, h.rootPos, h.rootLen, h.rootAct, ?_, ?_, ?_, ?_⟩
  · exact h.sorted.filter _
  · intro b hb
    have := h.isNode b (hK b hb)
    unfold IsNode at this ⊢
    rw [a.n]; exact this
  · exact (hmem r).2 ⟨h.root, (a.i_ne_root h).symm⟩
  · intro b hb he
    rw [a.edge_iff h (hK b hb) h.root (hK' b hb) (a.i_ne_root h).symm] at he
    split at he
    · exact h.top i a.mem he
    · exact h.top b (hK b hb) he
  · intro b hb b' hb' c hc h1 h2
    rw [a.edge_iff h (hK b hb) (hK c hc) (hK' b hb) (hK' c hc)] at h1
    rw [a.edge_iff h (hK b' hb') (hK c hc) (hK' b' hb') (hK' c hc)] at h2
    by_cases e1 : b = p <;> by_cases e2 : b' = p
    · rw [e1, e2]
    · rw [if_pos e1] at h1
      rw [if_neg e2] at h2
      exact absurd (h.parent i a.mem b' (hK b' hb') c (hK c hc) h1 h2).symm (hK' b' hb')
    · rw [if_neg e1] at h1
      rw [if_pos e2] at h2
      exact absurd (h.parent b (hK b hb) i a.mem c (hK c hc) h1 h2) (hK' b hb)
    · rw [if_neg e1] at h1
      rw [if_neg e2] at h2
      exact h.parent b (hK b hb) b' (hK b' hb') c (hK c hc) h1 h2
  · intro j hj
    have := a.reach_fwd h (a.i_ne_root h).symm (h.reach j (hK j hj))
    rwa [if_neg (hK' j hj)] at this
  · rw [a.d2i]
    exact (List.nodup_map_iff_inj_on h.nodup).2 (a.d2i_inj h)
  · intro c
    rw [a.mem_d2i h, hmem]
    constructor
    · rintro (⟨h1, h2⟩ | ⟨rfl, h2⟩)
      · have h3 := (h.leaves c).1 h1
        refine ⟨⟨h3.1, h2⟩, fun j hj he => ?_⟩
        rw [a.edge_iff h h3.1 (hK j hj) h2 (hK' j hj), if_neg (by rintro rfl; exact hpl h1)] at he
        exact h3.2 j (hK j hj) he
      · refine ⟨⟨a.pmem, hpne⟩, fun j hj he => ?_⟩
        rw [a.edge_iff h a.pmem (hK j hj) hpne (hK' j hj), if_pos rfl] at he
        exact ((h.leaves i).1 h2).2 j (hK j hj) he
    · rintro ⟨⟨h1, h2⟩, h3⟩
      by_cases e : c = p
      · right
        refine ⟨e, (h.leaves i).2 ⟨a.mem, fun j hj he => ?_⟩⟩
        have hji : j ≠ i := by rintro rfl; exact a.no_loop h he
        refine h3 j ((hmem j).2 ⟨hj, hji⟩) ?_
        rw [e, a.edge_iff h a.pmem hj hpne hji, if_pos rfl]
        exact he
      · left
        refine ⟨(h.leaves c).2 ⟨h1, fun j hj he => ?_⟩, h2⟩
        have hji : j ≠ i := by
          rintro rfl
          exact e (h.parent c h1 p a.pmem j hj he (a.edge h))
        refine h3 j ((hmem j).2 ⟨hj, hji⟩) ?_
        rw [a.edge_iff h h1 hj h2 hji, if_neg e]
        exact he
  · intro b hb
    exact h.rho b (hK b hb)
  · intro c hc
    unfold upd
    by_cases e : c = p
    · rw [if_pos e]
      rcases (a.mem_d2i h c).1 hc with h1 | ⟨_, h1⟩
      · exact absurd (e ▸ h1.1) hpl
      · exact h.nu i h1
    · rw [if_neg e]
      exact h.nu c (hleafne c hc e).1
  · intro c hc ha
    unfold upd
    by_cases e : c = p
    · subst e
      rw [if_pos rfl]
      have hil : i ∈ y.tree.dim2ind := by
        rcases (a.mem_d2i h c).1 hc with h1 | ⟨_, h1⟩
        · exact absurd h1.1 hpl
        · exact h1
      rw [a.shape, a.shape_p h]
      by_cases hai : act i = true
      · rw [if_pos hai, if_pos hai, h.leaf i hil hai, if_neg (a.i_ne_root h)]
        simp
      · rw [if_neg hai, if_neg hai]
    · rw [if_neg e]
      have h1 := hleafne c hc e
      rw [a.same c ((h.leaves c).1 h1.1).1 h1.2 e]
      exact h.leaf c h1.1 ha
  · intro c hc ha
    have e : c ≠ p := by rintro rfl; exact ha hap
    have h1 := hleafne c hc e
    rw [a.same c ((h.leaves c).1 h1.1).1 h1.2 e]
    exact h.off c h1.1 ha
  · intro b hb hl
    by_cases e : b ∈ y.tree.dim2ind
    · exact absurd ((a.mem_d2i h b).2 (.inl ⟨e, hK' b hb⟩)) hl
    · exact h.internal b (hK b hb) e
  · intro b hb hl
    have hbK := hK b hb
    have hbi := hK' b hb
    have hmap : ∀ l : List Nat, l.map (fun c => if act c then ρ c else upd ν p (ν i) c) = l.map (fun c => if act c then ρ c else ν c) := by
      intro l
      apply List.map_congr_left
      intro c _
      by_cases hc : act c = true
      · rw [if_pos hc, if_pos hc]
      · rw [if_neg hc, if_neg hc, hν c hc]
    rw [hmap]
    by_cases e : b = p
    · subst e
      have hil : i ∉ y.tree.dim2ind := fun hil => hl ((a.mem_d2i h b).2 (.inr ⟨rfl, hil⟩))
      have hai := h.internal i a.mem hil
      rw [a.shape, if_pos hai, a.shape_p h, h.node i a.mem hil, if_neg (a.i_ne_root h), a.kids_p h]
      simp
    · have hbl : b ∉ y.tree.dim2ind := fun hbl => hl ((a.mem_d2i h b).2 (.inl ⟨hbl, hbi⟩))
      rw [a.same b hbK hbi e, h.node b hbK hbl, a.kids_other h hbK hbi e]

theorem value {s : List Nat} {V : Nat → List Nat → List Nat → R} (hv : PVal y K r act ρ E s V) :
    PVal y' (K.filter (· ≠ i)) r act ρ E s V := by
  have hpne := a.p_ne h
  have hmem : ∀ b, b ∈ K.filter (· ≠ i) ↔ b ∈ K ∧ b ≠ i := by intro b; rw [List.mem_filter]; simp
  have hpl := a.p_internal h
  have hir := a.i_ne_root h
  have hlen : ∀ e, InBox (if p = r then E else [ρ p]) e → e.length + 1 = (y.tensors p).shape.length := by
    intro e he
    rw [a.shape_p h, List.length_cons, he.length_eq]
  have hp : ∀ idx e, InBox s idx → InBox (if p = r then E else [ρ p]) e → act i = true →
      V p idx e = ∑ t ∈ range (ρ i), V i idx [t] * (y.tensors p).get (t :: e) := by
    intro idx e hidx he hai
    rw [hv.node p a.pmem hpl idx e hidx he, a.only]
    simp only [psum, hai, if_true, List.cons_append, List.nil_append]
  refine ⟨?_, ?_⟩
  · intro c hc ha idx e hidx he
    rcases (a.mem_d2i h c).1 hc with h1 | ⟨h1, hil⟩
    · have hcp : c ≠ p := by rintro rfl; exact hpl h1.1
      rw [hv.leaf c h1.1 ha idx e hidx he, a.same c ((h.leaves c).1 h1.1).1 h1.2 hcp, a.dimOf_other h h1.1 h1.2]
    · subst h1
      rw [a.dimOf_p h hil]
      by_cases hai : act i = true
      · rw [hp idx e hidx he hai]
        have hs : (y.tensors i).shape.length = 2 := by rw [h.leaf i hil hai, if_neg hir]; rfl
        have := a.on hai [idx.getD (dimOf y.tree i) 0] e (by rw [hs]; rfl) (hlen e he)
        rw [List.singleton_append] at this
        rw [this]
        apply sum_congr rfl
        intro t ht
        rw [hv.leaf i hil hai idx [t] hidx (by rw [if_neg hir]; exact .cons (mem_range.1 ht) .nil)]
        rfl
      · rw [hv.node c a.pmem hpl idx e hidx he, a.only, a.off hai]
        have hai' : act i = false := by simpa using hai
        simp only [psum, hai', Bool.false_eq_true, if_false, List.cons_append, List.nil_append]
  · intro b hb hl idx e hidx he
    obtain ⟨hbK, hbi⟩ := (hmem b).1 hb
    have hdim : ∀ c, c ∈ K → ¬ act c = true → c ≠ i → dimOf y'.tree c = dimOf y.tree c := by
      intro c hc hac hci
      exact a.dimOf_other h (by by_contra hl; exact hac (h.internal c hc hl)) hci
    by_cases e' : b = p
    · subst e'
      have hil : i ∉ y.tree.dim2ind := fun hil => hl ((a.mem_d2i h b).2 (.inr ⟨rfl, hil⟩))
      have hai := h.internal i a.mem hil
      rw [hp idx e hidx he hai, a.kids_p h]
      have hsl : (y.tensors i).shape.length = (kids y.tree K i).length + 1 := by
        rw [h.node i a.mem hil, if_neg hir]; simp
      have h1 : ∀ t ∈ range (ρ i), V i idx [t] * (y.tensors b).get (t :: e) =
          psum act ρ (dimOf y.tree) V idx (kids y.tree K i) (fun u => (y.tensors i).get (u ++ [t]) * (y.tensors b).get (t :: e)) := by
        intro t ht
        rw [hv.node i a.mem hil idx [t] hidx (by rw [if_neg hir]; exact .cons (mem_range.1 ht) .nil), psum_mul]
      rw [sum_congr rfl h1, ← psum_sum]
      have h2 : psum act ρ (dimOf y'.tree) V idx (kids y.tree K i) (fun t => (y'.tensors b).get (t ++ e)) =
          psum act ρ (dimOf y.tree) V idx (kids y.tree K i) (fun t => (y'.tensors b).get (t ++ e)) := by
        refine psum_congr _ _ (fun _ _ => rfl) (fun _ _ _ => ⟨rfl, fun _ _ => rfl⟩) ?_
        intro c hc hac
        have hcm := (mem_kids h.isNode a.mem).1 hc
        rw [hdim c hcm.1 hac (by rintro rfl; exact a.no_loop h hcm.2)]
      rw [h2]
      apply psum_len
      intro t ht
      rw [a.on hai t e (by rw [hsl, ht]) (hlen e he)]
    · have hbl : b ∉ y.tree.dim2ind := fun hbl => hl ((a.mem_d2i h b).2 (.inl ⟨hbl, hbi⟩))
      rw [hv.node b hbK hbl idx e hidx he, a.kids_other h hbK hbi e', a.same b hbK hbi e']
      refine psum_congr _ _ (fun _ _ => rfl) (fun _ _ _ => ⟨rfl, fun _ _ => rfl⟩) ?_
      intro c hc hac
      have hcm := (mem_kids h.isNode hbK).1 hc
      rw [hdim c hcm.1 hac ?_]
      rintro rfl
      exact e' (h.parent b hbK p a.pmem c a.mem hcm.2 (a.edge h))

end Absorb

end Verif.TreeBased
