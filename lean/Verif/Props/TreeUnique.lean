import Verif.Lemmas.TreeMerge
import Verif.Lemmas.BottomUp
import Verif.Props.ParamGradient

/-!
# `remove_unique_children`
-/

namespace Verif.TreeBased

open Verif.Arr Verif.DimTree Verif.DimTree.DTree Finset

variable {R : Type}

theorem filter_single {l : List Nat} {q : Nat → Bool} {i : Nat} (hnd : l.Nodup) (hi : i ∈ l) (hq : ∀ c ∈ l, q c = true ↔ c = i) :
    l.filter q = [i] := by
  have h : l.filter q = l.filter (fun c => c == i) := by
    apply List.filter_congr
    intro c hc
    rw [Bool.eq_iff_iff, hq c hc]; simp
  rw [h, List.filter_beq, List.count_eq_one_of_mem hnd hi]; rfl

theorem mem_uniqueChildren {T : DTree} {c : Nat} : c ∈ uniqueChildren T ↔ ∃ p, IsNode T p ∧ T.children p = [c] := by
  unfold uniqueChildren
  rw [List.mem_filterMap]
  constructor
  · rintro ⟨p, hp, h⟩
    refine ⟨p, (mem_nodes p).1 hp, ?_⟩
    split at h
    · rename_i c' hc'; rw [hc']; cases h; rfl
    · cases h
  · rintro ⟨p, hp, h⟩
    exact ⟨p, (mem_nodes p).2 hp, by rw [h]⟩

open Classical in
/-- The nodes that are still there. -/
noncomputable def aliveNodes (T : DTree) (P : Nat → Prop) : List Nat := T.nodes.filter (fun i => decide (¬ P i))

theorem mem_aliveNodes {T : DTree} {P : Nat → Prop} {i : Nat} : i ∈ aliveNodes T P ↔ IsNode T i ∧ ¬ P i := by
  unfold aliveNodes
  rw [List.mem_filter, mem_nodes]; simp

theorem aliveNodes_step (T : DTree) (P : Nat → Prop) (i : Nat) :
    aliveNodes T (fun j => P j ∨ j = i) = (aliveNodes T P).filter (· ≠ i) := by
  unfold aliveNodes
  rw [List.filter_filter]
  apply List.filter_congr
  intro j _
  rw [Bool.eq_iff_iff]
  simp only [decide_eq_true_eq, Bool.and_eq_true, not_or]
  tauto

/-- The invariant of the loop; `P` is the set of the nodes already absorbed. -/
structure UInv [CommSemiring R] (y : TBT R) (r : Nat) (act : Nat → Bool) (ρ ν : Nat → Nat) (E : List Nat) (st : Chain R)
    (P : Nat → Prop) (ν' : Nat → Nat) : Prop where
  sub : ∀ i, P i → IsNode y.tree i ∧ i ∈ uniqueChildren y.tree
  closed : ∀ i c, P i → Edge y.tree i c → c ∈ uniqueChildren y.tree → P c
  part : Part ⟨⟨st.d2i, y.tree.n, st.adj⟩, st.ts⟩ (aliveNodes y.tree P) r act ρ ν' E
  value : ∀ s V, PVal y y.tree.nodes r act ρ E s V → PVal ⟨⟨st.d2i, y.tree.n, st.adj⟩, st.ts⟩ (aliveNodes y.tree P) r act ρ E s V
  sizes : st.d2i.map ν' = y.tree.dim2ind.map ν
  row : ∀ p, IsNode y.tree p → ¬ P p → (∀ c, Edge y.tree p c → c ∈ uniqueChildren y.tree → ¬ P c) → ∀ j, IsNode y.tree j →
    st.adj (p - 1) (j - 1) = y.tree.adj (p - 1) (j - 1)
  dead : ∀ p j, P p → IsNode y.tree j → st.adj (p - 1) (j - 1) = false
  single : ∀ b ∈ aliveNodes y.tree P, ∀ c, kids ⟨st.d2i, y.tree.n, st.adj⟩ (aliveNodes y.tree P) b = [c] →
    c ∈ uniqueChildren y.tree ∧ ¬ P c
  len : st.d2i.length = y.tree.dim2ind.length
  below : ∀ (k c c0 : Nat), st.d2i[k]? = some c → y.tree.dim2ind[k]? = some c0 → ∀ a ∈ aliveNodes y.tree P,
    (RK ⟨st.d2i, y.tree.n, st.adj⟩ (aliveNodes y.tree P) a c ↔ AncSelf y.tree a c0)
  cover : ∀ j, IsNode y.tree j → ∃ a ∈ aliveNodes y.tree P, ∀ c ∈ y.tree.dim2ind, AncSelf y.tree j c ↔ AncSelf y.tree a c

theorem only_child {T : DTree} {p i : Nat} (hp : IsNode T p) (h : T.children p = [i]) (c : Nat) : Edge T p c ↔ c = i := by
  rw [← mem_children p c hp, h]; simp

theorem UInv.step [CommSemiring R] {y : TBT R} {r : Nat} {act : Nat → Bool} {ρ ν : Nat → Nat} {E : List Nat} {st : Chain R}
    {P : Nat → Prop} {ν' : Nat → Nat} (h0 : Part y y.tree.nodes r act ρ ν E) (hI : UInv y r act ρ ν E st P ν') {i : Nat}
    (hi : IsNode y.tree i) (hQ : i ∈ uniqueChildren y.tree) (hPi : ¬ P i)
    (hch : ∀ c, Edge y.tree i c → c ∈ uniqueChildren y.tree → P c) (hpar : ∀ p, Edge y.tree p i → ¬ P p) :
    ∃ st' ν'', mergeChild y st i = .ok st' ∧ UInv y r act ρ ν E st' (fun j => P j ∨ j = i) ν'' := by
  have hV := h0.valid
  obtain ⟨p, hpn, hpc⟩ := mem_uniqueChildren.1 hQ
  have hpi := only_child hpn hpc
  have hep : Edge y.tree p i := (hpi i).2 rfl
  have hPp := hpar p hep
  have hiK : i ∈ aliveNodes y.tree P := mem_aliveNodes.2 ⟨hi, hPi⟩
  have hpK : p ∈ aliveNodes y.tree P := mem_aliveNodes.2 ⟨hpn, hPp⟩
  have hrow := hI.row p hpn hPp (fun c hc _ => by rw [(hpi c).1 hc]; exact hPi)
  have hKnd : (aliveNodes y.tree P).Nodup := hI.part.sorted.imp (fun hab => Nat.ne_of_lt hab)
  have honly : kids ⟨st.d2i, y.tree.n, st.adj⟩ (aliveNodes y.tree P) p = [i] := by
    refine filter_single hKnd hiK ?_
    intro c hc
    have hcn := (mem_aliveNodes.1 hc).1
    show st.adj (p - 1) (c - 1) = true ↔ _
    rw [hrow c hcn, ← hpi c]
    exact ⟨fun h => ⟨hpn, hcn, h⟩, fun h => h.2.2⟩
  have hact : ∀ j, IsNode y.tree j → y.active j = act j := fun j hj => h0.active ((mem_nodes j).2 hj)
  have hp1 := hpn.1
  have hi1 := hi.1
  have hpne : p ≠ i := by
    rintro rfl
    exact Anc.irrefl hV p (.single hep)
  have hfind : (List.range y.tree.n).find? (fun q => st.adj q (i - 1)) = some (p - 1) := by
    cases hf : (List.range y.tree.n).find? (fun q => st.adj q (i - 1)) with
    | none =>
      rw [List.find?_eq_none] at hf
      have hmem : p - 1 ∈ List.range y.tree.n := by rw [List.mem_range]; have := hpn.2; omega
      have := hf _ hmem
      simp only [hrow i hi, hep.2.2] at this
      exact absurd trivial this
    | some q =>
      have h1 := List.find?_some hf
      have h2 := List.mem_range.1 (List.mem_of_find?_eq_some hf)
      have hqn : IsNode y.tree (q + 1) := ⟨by omega, by omega⟩
      have hPq : ¬ P (q + 1) := by
        intro hc
        have := hI.dead _ i hc hi
        rw [Nat.add_sub_cancel] at this
        simp only [this] at h1
        exact absurd h1 (by simp)
      have hqK : q + 1 ∈ aliveNodes y.tree P := mem_aliveNodes.2 ⟨hqn, hPq⟩
      have := hI.part.parent (q + 1) hqK p hpK i hiK ⟨hqn, hi, by rw [Nat.add_sub_cancel]; exact h1⟩
        ⟨hpn, hi, by show st.adj _ _ = true; rw [hrow i hi]; exact hep.2.2⟩
      rw [← this, Nat.add_sub_cancel]
  -- the new state
  have habs : ∃ st', mergeChild y st i = .ok st' ∧
      Absorb ⟨⟨st.d2i, y.tree.n, st.adj⟩, st.ts⟩ ⟨⟨st'.d2i, y.tree.n, st'.adj⟩, st'.ts⟩ (aliveNodes y.tree P) act ρ i p ∧
      (∀ q j, IsNode y.tree q → IsNode y.tree j → q ≠ i → q ≠ p → st'.adj (q - 1) (j - 1) = st.adj (q - 1) (j - 1)) ∧
      (∀ j, IsNode y.tree j → st'.adj (i - 1) (j - 1) = false) := by
    have hsp := hI.part.node p hpK (fun hl => ((hI.part.leaves p).1 hl).2 i hiK
        ⟨hpn, hi, by show st.adj _ _ = true; rw [hrow i hi]; exact hep.2.2⟩)
    rw [show kids _ (aliveNodes y.tree P) p = [i] from honly] at hsp
    have hne : i ≠ r := hI.part.kid_ne_root hpK (by show i ∈ kids _ _ p; rw [honly]; simp)
    by_cases hai : act i = true
    · have hsi : ∃ sb, (st.ts i).shape = sb ++ [ρ i] := by
        by_cases hl : i ∈ st.d2i
        · refine ⟨[ν' i], ?_⟩
          have := hI.part.leaf i hl hai
          rw [if_neg hne] at this
          exact this
        · have := hI.part.node i hiK hl
          rw [if_neg hne] at this
          exact ⟨_, this⟩
      obtain ⟨sb, hsb⟩ := hsi
      simp only [hai, List.map_cons, List.map_nil, if_true] at hsp
      obtain ⟨t, t1, t2, t3⟩ := tensordot_last (st.ts i) (st.ts p) sb [] (if p = r then E else [ρ p]) (ρ i) hsb
        (by simpa using hsp)
      refine ⟨⟨upd (upd st.ts p t) i emptyArr, fun a j => if a = i - 1 then false else if a = p - 1 then st.adj (i - 1) j else st.adj a j,
        st.d2i.map (fun c => if c = i then p else c)⟩, ?_, ?_, ?_, ?_⟩
      · unfold mergeChild
        rw [hfind]
        have hpp : p - 1 + 1 = p := by omega
        simp only [hact i hi, hai, if_true, hpp]
        rw [show ([0] : List Nat) = [([] : List Nat).length] from rfl, t1]
        rfl
      · have htp : upd (upd st.ts p t) i emptyArr p = t := by
          unfold upd; rw [if_neg hpne, if_pos rfl]
        refine ⟨hiK, hpK, honly, rfl, ?_, rfl, ?_, ?_, ?_, fun hc => absurd hai hc⟩
        · intro a ha b hb hai' hbi
          have ha1 := (mem_aliveNodes.1 ha).1.1
          show (if a - 1 = i - 1 then false else if a - 1 = p - 1 then st.adj (i - 1) (b - 1) else st.adj (a - 1) (b - 1)) = _
          rw [if_neg (by omega)]
          by_cases e : a = p
          · rw [if_pos e, if_pos (by omega)]
          · rw [if_neg e, if_neg (by omega)]
        · intro a _ hai' hap
          show upd (upd st.ts p t) i emptyArr a = st.ts a
          unfold upd; rw [if_neg hai', if_neg hap]
        · show (upd (upd st.ts p t) i emptyArr p).shape = _
          rw [htp, if_pos hai]
          show t.shape = (st.ts i).shape.dropLast ++ (st.ts p).shape.tail
          rw [t2, hsb, hsp]
          simp
        · intro _ u w hu hw
          show (upd (upd st.ts p t) i emptyArr p).get (u ++ w) = _
          rw [htp]
          have hu' : u.length + 1 = (st.ts i).shape.length := hu
          have hw' : w.length + 1 = (st.ts p).shape.length := hw
          rw [hsb] at hu'
          rw [hsp] at hw'
          have := t3 u [] w (by simpa using hu') rfl (by simpa using hw')
          simpa using this
      · intro q j hq hj hqi hqp
        have := hq.1
        show (if q - 1 = i - 1 then false else if q - 1 = p - 1 then st.adj (i - 1) (j - 1) else st.adj (q - 1) (j - 1)) = _
        rw [if_neg (by omega), if_neg (by omega)]
      · intro j hj
        show (if i - 1 = i - 1 then false else _) = false
        rw [if_pos rfl]
    · have hai' : act i = false := by simpa using hai
      have hil : i ∈ y.tree.dim2ind := by
        by_contra hl; exact hai (h0.internal i ((mem_nodes i).2 hi) hl)
      have hnoe := ((hV.leaves i).1 hil).2
      have hrowi := hI.row i hi hPi (fun c hc _ => absurd hc (hnoe c))
      have hfalse : ∀ j, IsNode y.tree j → st.adj (i - 1) (j - 1) = false := by
        intro j hj
        rw [hrowi j hj]
        by_contra hc
        exact hnoe j ⟨hi, hj, by simpa using hc⟩
      refine ⟨⟨upd st.ts i emptyArr, st.adj, st.d2i.map (fun c => if c = i then p else c)⟩, ?_, ?_, fun _ _ _ _ _ _ => rfl, hfalse⟩
      · unfold mergeChild
        rw [hfind]
        have hpp : p - 1 + 1 = p := by omega
        simp only [hact i hi, hai', hpp, Bool.false_eq_true, if_false]
      · have htp : upd st.ts i emptyArr p = st.ts p := by unfold upd; rw [if_neg hpne]
        refine ⟨hiK, hpK, honly, rfl, ?_, rfl, ?_, ?_, fun hc => absurd hc hai, ?_⟩
        · intro a ha b hb hai'' hbi
          show st.adj (a - 1) (b - 1) = if a = p then st.adj (i - 1) (b - 1) else st.adj (a - 1) (b - 1)
          have hbn := (mem_aliveNodes.1 hb).1
          by_cases e : a = p
          · rw [if_pos e, hfalse b hbn, e, hrow b hbn]
            by_contra hc
            exact hbi ((hpi b).1 ⟨hpn, hbn, by simpa using hc⟩)
          · rw [if_neg e]
        · intro a _ hai'' _
          show upd st.ts i emptyArr a = st.ts a
          unfold upd; rw [if_neg hai'']
        · show (upd st.ts i emptyArr p).shape = _
          rw [htp, if_neg hai]
        · intro _
          show (upd st.ts i emptyArr p).get = _
          rw [htp]
  obtain ⟨st', e1, ab, hrow', hdead'⟩ := habs
  have hpart := ab.part hI.part
  rw [← aliveNodes_step] at hpart
  refine ⟨st', _, e1, ⟨?_, ?_, hpart, ?_, ?_, ?_, ?_, ?_, ?_, ?_, ?_⟩⟩
  · rintro j (hj | rfl)
    · exact hI.sub j hj
    · exact ⟨hi, hQ⟩
  · rintro j c (hj | rfl) he hc
    · exact .inl (hI.closed j c hj he hc)
    · exact .inl (hch c he hc)
  · intro s V hv
    rw [aliveNodes_step]
    exact ab.value hI.part (hI.value s V hv)
  · rw [← hI.sizes]
    have : st'.d2i = st.d2i.map (fun c => if c = i then p else c) := ab.d2i
    rw [this, List.map_map]
    apply List.map_congr_left
    intro c hc
    show upd ν' p (ν' i) (if c = i then p else c) = ν' c
    by_cases e : c = i
    · rw [if_pos e, e]; unfold upd; rw [if_pos rfl]
    · rw [if_neg e]; unfold upd
      rw [if_neg]
      rintro rfl
      exact ab.p_internal hI.part hc
  · intro q hq hPq hcq j hj
    have hqi : q ≠ i := fun e => hPq (.inr e)
    have hqp : q ≠ p := by
      rintro rfl
      exact hcq i hep hQ (.inr rfl)
    rw [hrow' q j hq hj hqi hqp]
    exact hI.row q hq (fun h => hPq (.inl h)) (fun c hc hc' h => hcq c hc hc' (.inl h)) j hj
  · rintro q j (hq | rfl) hj
    · have hqn := (hI.sub q hq).1
      rw [hrow' q j hqn hj (by rintro rfl; exact hPi hq) (by rintro rfl; exact hPp hq)]
      exact hI.dead q j hq hj
    · exact hdead' j hj
  · intro b hb c hc
    rw [aliveNodes_step] at hb hc
    obtain ⟨hbK, hbi⟩ := List.mem_filter.1 hb
    have hbi' : b ≠ i := by simpa using hbi
    by_cases e : b = p
    · subst e
      have hk : kids ⟨st.d2i, y.tree.n, st.adj⟩ (aliveNodes y.tree P) i = [c] := (ab.kids_p hI.part).symm.trans hc
      obtain ⟨hcQ, hcP⟩ := hI.single i hiK c hk
      exfalso
      obtain ⟨q, hqn, hqc⟩ := mem_uniqueChildren.1 hcQ
      have hqi := only_child hqn hqc
      have hqe : Edge y.tree q c := (hqi c).2 rfl
      have hPq : ¬ P q := fun h => hcP (hI.closed q c h hqe hcQ)
      have hcm : c ∈ aliveNodes y.tree P := mem_aliveNodes.2 ⟨hqe.2.1, hcP⟩
      have hcedge := (mem_kids hI.part.isNode hiK).1 (show c ∈ kids _ _ i by rw [show kids _ _ i = [c] from hk]; simp)
      have hqrow := hI.row q hqn hPq (fun d hd _ => by rw [(hqi d).1 hd]; exact hcP) c hqe.2.1
      have : q = i := hI.part.parent q (mem_aliveNodes.2 ⟨hqn, hPq⟩) i hiK c hcm
        ⟨hqn, hqe.2.1, by show st.adj _ _ = true; rw [hqrow]; exact hqe.2.2⟩ hcedge.2
      subst this
      exact hcP (hch c hqe hcQ)
    · have hk := (ab.kids_other hI.part hbK hbi' e).symm.trans hc
      obtain ⟨hcQ, hcP⟩ := hI.single b hbK c hk
      refine ⟨hcQ, fun h => h.elim hcP ?_⟩
      rintro rfl
      have hcedge := (mem_kids hI.part.isNode hbK).1 (show c ∈ kids _ _ b by rw [show kids _ _ b = [c] from hk]; simp)
      exact e (hI.part.parent b hbK p hpK c hiK hcedge.2 (ab.edge hI.part))
  · rw [show st'.d2i = st.d2i.map (fun c => if c = i then p else c) from ab.d2i, List.length_map, hI.len]
  · intro k c c0 hc hc0 b hb
    rw [show st'.d2i = st.d2i.map (fun c => if c = i then p else c) from ab.d2i, List.getElem?_map] at hc
    obtain ⟨d, hd, rfl⟩ := Option.map_eq_some_iff.1 hc
    rw [aliveNodes_step] at hb ⊢
    obtain ⟨hbK, hbi⟩ := List.mem_filter.1 hb
    rw [← hI.below k d c0 hd hc0 b hbK]
    exact ab.reach_leaf hI.part (by simpa using hbi)
  · intro j hj
    obtain ⟨b, hbK, hb⟩ := hI.cover j hj
    by_cases e : b = i
    · refine ⟨p, mem_aliveNodes.2 ⟨hpn, fun h => h.elim hPp hpne⟩, ?_⟩
      intro c0 hc0
      rw [hb c0 hc0, e]
      obtain ⟨k, hk, hkc⟩ := List.mem_iff_getElem.1 hc0
      have hk0 : y.tree.dim2ind[k]? = some c0 := by rw [List.getElem?_eq_getElem hk, hkc]
      have hk' : k < st.d2i.length := by rw [hI.len]; exact hk
      have hk1 : st.d2i[k]? = some st.d2i[k] := List.getElem?_eq_getElem hk'
      rw [← hI.below k _ c0 hk1 hk0 i hiK, ← hI.below k _ c0 hk1 hk0 p hpK]
      exact (ab.reach_parent hI.part (List.getElem_mem hk')).symm
    · exact ⟨b, mem_aliveNodes.2 ⟨(mem_aliveNodes.1 hbK).1, fun h => h.elim (mem_aliveNodes.1 hbK).2 e⟩, hb⟩

/-- The dimension `k` is below the node `i`. -/
def Below (T : DTree) (i k : Nat) : Prop := ∃ c, T.dim2ind[k]? = some c ∧ AncSelf T i c

theorem arity_ne_zero {T : DTree} {i j : Nat} (he : Edge T i j) : T.arity ≠ 0 := by
  have h1 := he.1
  have h2 := he.2.1
  unfold IsNode at h1 h2
  have hmax : ∀ (l : List Nat) (a : Nat), a ≤ l.foldl max a ∧ ∀ x ∈ l, x ≤ l.foldl max a := by
    intro l
    induction l with
    | nil => intro a; exact ⟨le_refl _, by simp⟩
    | cons b l ih =>
      intro a
      obtain ⟨g1, g2⟩ := ih (max a b)
      refine ⟨le_trans (le_max_left _ _) g1, ?_⟩
      intro x hx
      rcases List.mem_cons.1 hx with rfl | hx
      · exact le_trans (le_max_right _ _) g1
      · exact g2 x hx
  unfold DTree.arity
  have hlen : 1 ≤ ((List.range T.n).filter (T.adj (i - 1))).length := by
    have : j - 1 ∈ (List.range T.n).filter (T.adj (i - 1)) := by
      rw [List.mem_filter, List.mem_range]; exact ⟨by omega, he.2.2⟩
    exact List.length_pos_of_mem this
  have := (hmax ((List.range T.n).map (fun i => ((List.range T.n).filter (T.adj i)).length)) 0).2 _
    (List.mem_map.2 ⟨i - 1, by rw [List.mem_range]; omega, rfl⟩)
  omega

/-- `remove_unique_children` on a tensor described by `Part` (of any order, with at least one edge). -/
theorem removeUnique_part [CommSemiring R] {y : TBT R} {r : Nat} {act : Nat → Bool} {ρ ν : Nat → Nat} {E : List Nat}
    (h0 : Part y y.tree.nodes r act ρ ν E) (hex : ∃ i j, Edge y.tree i j) :
    ∃ (z : TBT R) (φ : Nat → Nat) (r' : Nat) (ν' : Nat → Nat), removeUniqueChildren y = .ok z ∧
      Part z z.tree.nodes r' (fun i => act (φ i)) (fun i => ρ (φ i)) ν' E ∧ φ r' = r ∧
      (∀ s V, PVal y y.tree.nodes r act ρ E s V →
        PVal z z.tree.nodes r' (fun i => act (φ i)) (fun i => ρ (φ i)) E s (fun i => V (φ i))) ∧
      z.tree.dim2ind.map ν' = y.tree.dim2ind.map ν ∧ (∀ i, IsNode z.tree i → IsNode y.tree (φ i)) ∧
      (∀ i, IsNode z.tree i → (z.tree.children i).length ≠ 1) ∧
      (∀ i, IsNode z.tree i → ∀ k, Below z.tree i k ↔ Below y.tree (φ i) k) ∧
      (∀ j, IsNode y.tree j → ∃ i, IsNode z.tree i ∧ ∀ k, Below z.tree i k ↔ Below y.tree j k) := by
  have hV := h0.valid
  obtain ⟨lev, hlv, hlev⟩ := level_ok hV
  obtain ⟨i0, j0, he0⟩ := hex
  have hP0 : (fun i => IsNode y.tree i ∧ i ∈ uniqueChildren y.tree ∧ y.tree.maxLevel lev + 1 ≤ lev i) = fun _ => False := by
    funext i
    apply propext
    constructor
    · rintro ⟨a, _, b⟩
      have := lev_le_maxLevel (T := y.tree) lev a
      omega
    · exact False.elim
  have hal : aliveNodes y.tree (fun _ => False) = y.tree.nodes := by
    unfold aliveNodes
    rw [List.filter_eq_self]
    intro a _; simp
  have hyeq : (⟨⟨y.tree.dim2ind, y.tree.n, y.tree.adj⟩, y.tensors⟩ : TBT R) = y := rfl
  have hTeq : (⟨y.tree.dim2ind, y.tree.n, y.tree.adj⟩ : DTree) = y.tree := rfl
  obtain ⟨st, e1, ν', hI⟩ := bottomUp hV hlev (mergeChild y) (fun i => i ∈ uniqueChildren y.tree)
    (fun l => (y.tree.nodesWithLevel lev l).filter (fun i => (uniqueChildren y.tree).contains i))
    (by
      intro l i
      rw [List.mem_filter, mem_nodesWithLevel, List.contains_iff_mem]
      tauto)
    (fun l => (nodup_nodesWithLevel lev l).filter _)
    (fun st P => ∃ ν', UInv y r act ρ ν E st P ν')
    (by
      rintro st P i ⟨ν', hI⟩ hi hQ hPi hch hpar
      obtain ⟨st', ν'', e1, e2⟩ := hI.step h0 hi hQ hPi hch hpar
      exact ⟨st', e1, ν'', e2⟩)
    (y.tree.maxLevel lev + 1) ⟨y.tensors, y.tree.adj, y.tree.dim2ind⟩
    (by
      rw [hP0]
      refine ⟨ν, ?_, ?_, ?_, ?_, rfl, ?_, ?_, ?_, rfl, ?_, ?_⟩
      · exact fun _ h => h.elim
      · exact fun _ _ h => h.elim
      · rw [hal, hyeq]; exact h0
      · intro s V hv; rw [hal, hyeq]; exact hv
      · intros; rfl
      · exact fun _ _ h => h.elim
      · intro b hb c hc
        rw [hal, hTeq, kids_nodes] at hc
        exact ⟨mem_uniqueChildren.2 ⟨b, (mem_aliveNodes.1 hb).1, hc⟩, fun h => h⟩
      · intro k c c0 hc hc0 a _
        rw [hal, hTeq, rk_nodes]
        have : c = c0 := by
          have : (some c : Option Nat) = some c0 := hc.symm.trans hc0
          exact Option.some.inj this
        rw [this]
      · intro j hj
        exact ⟨j, mem_aliveNodes.2 ⟨hj, fun h => h⟩, fun _ _ => Iff.rfl⟩)
  obtain ⟨K, hK⟩ : ∃ K, K = aliveNodes y.tree (fun i => IsNode y.tree i ∧ i ∈ uniqueChildren y.tree) := ⟨_, rfl⟩
  have hKf : K = ((List.range y.tree.n).map (· + 1)).filter (fun i => !(uniqueChildren y.tree).contains i) := by
    rw [hK]
    unfold aliveNodes
    apply List.filter_congr
    intro i hi
    have hin := (mem_nodes i).1 hi
    by_cases hm : i ∈ uniqueChildren y.tree
    · rw [List.contains_iff_mem.2 hm]
      exact @decide_eq_false (¬ (fun i => IsNode y.tree i ∧ i ∈ uniqueChildren y.tree) i) (@instDecidableNot _ (Classical.propDecidable _)) (fun h => h ⟨hin, hm⟩)
    · have : (uniqueChildren y.tree).contains i = false := by
        rw [← Bool.not_eq_true, List.contains_iff_mem]; exact hm
      rw [this]
      exact @decide_eq_true (¬ (fun i => IsNode y.tree i ∧ i ∈ uniqueChildren y.tree) i) (@instDecidableNot _ (Classical.propDecidable _)) (fun h => hm h.2)
  obtain ⟨z, φ, r', f1, f2, f3, f4, f5, f6, f7, f8, f9, f10, f11⟩ :=
    restrict_spec y.tree.n st.adj st.ts (uniqueChildren y.tree) st.d2i K hKf (by rw [hK]; exact hI.part)
  have hz : removeUniqueChildren y = .ok z := by
    unfold removeUniqueChildren
    rw [if_neg (arity_ne_zero he0), hlv]
    simp only [bind, Except.bind] at e1 ⊢
    rw [e1]
    exact f1
  have hbel : ∀ i, IsNode z.tree i → ∀ k, Below z.tree i k ↔ Below y.tree (φ i) k := by
    intro i hi k
    have hlen : z.tree.dim2ind.length = y.tree.dim2ind.length := by
      rw [← hI.len, ← f6, List.length_map]
    have hmap : ∀ c, z.tree.dim2ind[k]? = some c → st.d2i[k]? = some (φ c) := by
      intro c hc
      rw [← f6, List.getElem?_map, hc]; rfl
    have hnode : ∀ c, z.tree.dim2ind[k]? = some c → IsNode z.tree c := fun c hc =>
      (mem_nodes c).1 ((f2.leaves c).1 (List.mem_of_getElem? hc)).1
    have hiK : φ i ∈ aliveNodes y.tree (fun i => IsNode y.tree i ∧ i ∈ uniqueChildren y.tree) := by
      rw [← hK]; exact (f7 i hi).1
    constructor
    · rintro ⟨c, hc, hic⟩
      have hk : k < y.tree.dim2ind.length := by
        rw [← hlen]; exact (List.getElem?_eq_some_iff.1 hc).1
      refine ⟨y.tree.dim2ind[k], List.getElem?_eq_getElem hk, ?_⟩
      rw [← hI.below k (φ c) _ (hmap c hc) (List.getElem?_eq_getElem hk) (φ i) hiK, ← hK]
      exact (f11 i c hi (hnode c hc)).1 hic
    · rintro ⟨c0, hc0, hic⟩
      have hk : k < z.tree.dim2ind.length := by
        rw [hlen]; exact (List.getElem?_eq_some_iff.1 hc0).1
      have hc : z.tree.dim2ind[k]? = some z.tree.dim2ind[k] := List.getElem?_eq_getElem hk
      refine ⟨_, hc, ?_⟩
      rw [f11 i _ hi (hnode _ hc), hK, hI.below k _ c0 (hmap _ hc) hc0 (φ i) hiK]
      exact hic
  refine ⟨z, φ, r', fun i => ν' (φ i), hz, f2, f3, ?_, ?_, ?_, ?_, hbel, ?_⟩
  · intro s V hv
    exact f4 s V (by rw [hK]; exact hI.value s V hv)
  · rw [← hI.sizes, ← f6, List.map_map]; rfl
  · intro i hi
    have := (f7 i hi).1
    rw [hK] at this
    exact (mem_aliveNodes.1 this).1
  · intro i hi hlen
    obtain ⟨hiK, _⟩ := f7 i hi
    have hk := f8 i hi
    obtain ⟨c, hc⟩ := List.length_eq_one_iff.1 hlen
    rw [hc] at hk
    rw [hK] at hk hiK
    have := hI.single (φ i) hiK (φ c) hk.symm
    have hcm : φ c ∈ kids ⟨st.d2i, y.tree.n, st.adj⟩ (aliveNodes y.tree (fun i => IsNode y.tree i ∧ i ∈ uniqueChildren y.tree)) (φ i) := by
      rw [← hk]; simp
    unfold kids at hcm
    have hcK := mem_aliveNodes.1 (List.mem_filter.1 hcm).1
    exact this.2 ⟨hcK.1, this.1⟩
  · intro j hj
    obtain ⟨a, haK, ha⟩ := hI.cover j hj
    rw [← hK] at haK
    obtain ⟨i, hi, hia⟩ := f9 a haK
    refine ⟨i, hi, fun k => ?_⟩
    rw [hbel i hi k, hia]
    constructor
    · rintro ⟨c, hc, h⟩; exact ⟨c, hc, (ha c (List.mem_of_getElem? hc)).2 h⟩
    · rintro ⟨c, hc, h⟩; exact ⟨c, hc, (ha c (List.mem_of_getElem? hc)).1 h⟩

/-- The nodes of `z` and of `x` stand for the same sets of dimensions. -/
def SameSets (z x : DTree) : Prop :=
  (∀ i, IsNode z i → ∃ j, IsNode x j ∧ ∀ k, Below z i k ↔ Below x j k) ∧
    ∀ j, IsNode x j → ∃ i, IsNode z i ∧ ∀ k, Below z i k ↔ Below x j k

theorem exists_edge {T : DTree} (hV : Valid T) (ho : 2 ≤ T.dim2ind.length) : ∃ i j, Edge T i j := by
  obtain ⟨r, _, hroot⟩ := root_ok hV
  have hrl := Shaped.root_internal' hV ho hroot
  by_contra hc
  push Not at hc
  exact hrl ((hV.leaves r).2 ⟨hroot.1, fun j => hc r j⟩)

/-- C141. `remove_unique_children` succeeds on every well-formed tensor, keeps the tensor, leaves no node with exactly one
child and keeps the sets of dimensions of the nodes. -/
theorem removeUniqueChildren_full [CommSemiring R] (x : TBT R) (h : WF x) :
    ∃ z a b, removeUniqueChildren x = .ok z ∧ full x = .ok a ∧ full z = .ok b ∧ WF z ∧ z.shape = x.shape ∧ b ≃ₐ a ∧
      (∀ i, IsNode z.tree i → (z.tree.children i).length ≠ 1) ∧ SameSets z.tree x.tree := by
  obtain ⟨V, hv⟩ := exists_value x h.valid
  obtain ⟨r, hr, hroot⟩ := root_ok h.valid
  obtain ⟨z, φ, r', ν', g1, g2, g3, g4, g5, g6, g7, g8, g9⟩ := removeUnique_part (h.part hroot) (exists_edge h.valid h.order)
  have hlen : z.tree.dim2ind.length = x.tree.dim2ind.length := by
    have := congrArg List.length g5
    simpa using this
  have ho : 2 ≤ z.tree.dim2ind.length := by rw [hlen]; exact h.order
  have hsz := g2.shaped ho
  have hwf := hsz.wf g2.valid ho
  have hsh : z.shape = x.shape := by
    rw [hsz.shapeEq g2.valid ho, g5]; rfl
  have hroot' := g2.isRoot
  have hrl' := Shaped.root_internal' g2.valid ho hroot'
  obtain ⟨r'', hr'', hroot''⟩ := root_ok g2.valid
  obtain rfl := root_unique g2.valid hroot'' hroot'
  have hrs := hsz.rankShape_root hroot' hrl'
  have hvz := g2.value ho (g4 (z.tree.dim2ind.map ν') V (hv.part r _ _))
  obtain ⟨a, a1, a2, a3⟩ := full_on x h hv.on hr
  obtain ⟨b, b1, b2, b3⟩ := full_on z hwf hvz hr''
  refine ⟨z, a, b, g1, a1, b1, hwf, hsh, ⟨by rw [a2, b2, hsh, hrs], ?_⟩, g7, ?_, g9⟩
  · intro idx hidx
    rw [b2] at hidx
    obtain ⟨p, e, rfl, hp, he⟩ := inBox_append_split hidx
    rw [b3 p e hp he, g3, a3 p e (hsh ▸ hp) (hrs ▸ he)]
  · exact fun i hi => ⟨φ i, g6 i hi, g8 i hi⟩

/-- Witness: a tree with a node that has one child. -/
theorem removeUniqueChildren_witness : WF exUn ∧ (exUn.tree.children 2).length = 1 ∧
    (removeUniqueChildren exUn).toOption.map (fun z => (z.tree.n, z.shape)) = some (3, exUn.shape) :=
  ⟨exUn_wf, by decide +kernel, by decide +kernel⟩

/-- `remove_unique_children` raises on a tree made of one node. -/
theorem removeUniqueChildren_one_node [CommSemiring R] (x : TBT R) (h : ∀ i j, ¬ Edge x.tree i j) :
    removeUniqueChildren x = .error .indexError := by
  unfold removeUniqueChildren
  rw [if_pos]
  unfold DTree.arity
  have : ∀ (l : List Nat), (∀ a ∈ l, a = 0) → l.foldl max 0 = 0 := by
    intro l
    induction l with
    | nil => intro _; rfl
    | cons b l ih =>
      intro hl
      rw [List.foldl_cons, hl b (by simp)]
      exact ih (fun a ha => hl a (by simp [ha]))
  apply this
  intro a ha
  obtain ⟨i, hi, rfl⟩ := List.mem_map.1 ha
  rw [List.length_eq_zero_iff, List.filter_eq_nil_iff]
  intro j hj hadj
  rw [List.mem_range] at hi hj
  exact h (i + 1) (j + 1) ⟨by unfold IsNode; omega, by unfold IsNode; omega, by simpa using hadj⟩

end Verif.TreeBased
