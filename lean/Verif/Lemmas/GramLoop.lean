import Verif.Model.Gramians
import Verif.Lemmas.EnvGram
import Verif.Lemmas.TopDown

/-!
# The loops of `gramians`
-/

namespace Verif.TreeBased

open Verif.Arr Verif.DimTree Finset

variable {R : Type}

theorem setdiff_mid (a n : Nat) (ha : a < n) :
    FullTensor.setdiffRange n (FullTensor.setdiffRange n [a]) = [a] := by
  have hm : ∀ k, k ∈ FullTensor.setdiffRange n (FullTensor.setdiffRange n [a]) ↔ k = a := by
    intro k
    rw [mem_setdiffRange, mem_setdiffRange]
    simp only [List.mem_singleton, not_and, not_not]
    constructor
    · rintro ⟨h1, h2⟩; exact h2 h1
    · rintro rfl; exact ⟨ha, fun _ => rfl⟩
  have hnd : (FullTensor.setdiffRange n (FullTensor.setdiffRange n [a])).Nodup := List.nodup_range.filter _
  have hp : (FullTensor.setdiffRange n (FullTensor.setdiffRange n [a])).Perm [a] := by
    rw [List.perm_ext_iff_of_nodup hnd (List.nodup_singleton a)]
    intro k; rw [hm, List.mem_singleton]
  exact List.perm_singleton.1 hp

/-- `tensordot` on all the axes except one. -/
theorem tensordot_except [CommSemiring R] (A B : Arr R) (s1 s2 : List Nat) (m : Nat) (hA : A.shape = s1 ++ m :: s2)
    (hB : B.shape = s1 ++ m :: s2) :
    ∃ t, FullTensor.tensordotT A B (FullTensor.setdiffRange A.order [s1.length]) (FullTensor.setdiffRange A.order [s1.length]) = .ok t ∧
      t.shape = [m, m] ∧ ∀ s s', t.get [s, s'] =
        sumBox s1 (fun t1 => sumBox s2 (fun t2 => A.get (t1 ++ s :: t2) * B.get (t1 ++ s' :: t2))) := by
  have hord : A.order = (s1 ++ m :: s2).length := by rw [← hA]; rfl
  have hordB : B.order = (s1 ++ m :: s2).length := by rw [← hB]; rfl
  have hlt : s1.length < (s1 ++ m :: s2).length := by simp
  have e1 : ∀ (v1 v2 : List Nat) (v : Nat), v1.length = s1.length → v2.length = s2.length →
      applyPerm (FullTensor.setdiffRange (s1 ++ m :: s2).length [s1.length]) (v1 ++ v :: v2) = v1 ++ v2 := by
    intro v1 v2 v h1 h2
    have := dropAxes_mid v1 v2 v
    rw [dropAxes_eq, h1] at this
    rw [← this]
    congr 2
    simp [h1, h2]
  have e2 : ∀ (v1 v2 : List Nat) (v : Nat), v1.length = s1.length → v2.length = s2.length →
      dropAxes (FullTensor.setdiffRange (s1 ++ m :: s2).length [s1.length]) (v1 ++ v :: v2) = [v] := by
    intro v1 v2 v h1 h2
    have hl : (v1 ++ v :: v2).length = (s1 ++ m :: s2).length := by simp [h1, h2]
    rw [dropAxes_eq, hl, setdiff_mid _ _ hlt]
    show [(v1 ++ v :: v2).getD s1.length 0] = _
    rw [← h1]; simp
  rw [hord]
  refine ⟨A.tensordot B (FullTensor.setdiffRange (s1 ++ m :: s2).length [s1.length])
    (FullTensor.setdiffRange (s1 ++ m :: s2).length [s1.length]), ?_, ?_, ?_⟩
  · unfold FullTensor.tensordotT
    rw [if_pos (by rw [hA, hB])]
  · simp only [Arr.tensordot]
    rw [hA, hB, e2 s1 s2 m rfl rfl]; rfl
  · intro s s'
    simp only [Arr.tensordot]
    rw [hA, e1 s1 s2 m rfl rfl, e2 s1 s2 m rfl rfl, sumBox_append]
    apply sumBox_congr
    intro t1 ht1
    apply sumBox_congr
    intro t2 ht2
    have hm : ∀ v, mergeIdx (FullTensor.setdiffRange (s1 ++ m :: s2).length [s1.length]) (t1 ++ t2) 0 (s1 ++ m :: s2).length [v] =
        t1 ++ v :: t2 := by
      intro v
      have := mergeIdx_self (ax := FullTensor.setdiffRange (s1 ++ m :: s2).length [s1.length]) (idx := t1 ++ v :: t2)
        (e1 t1 t2 v ht1.length_eq ht2.length_eq)
      rw [e2 t1 t2 v ht1.length_eq ht2.length_eq] at this
      have hl : (t1 ++ v :: t2).length = (s1 ++ m :: s2).length := by simp [ht1.length_eq, ht2.length_eq]
      rw [hl] at this
      exact this
    rw [hord, hordB]
    show A.get (mergeIdx _ _ 0 _ [s]) * B.get (mergeIdx _ _ 0 _ [s']) = _
    rw [hm, hm]

section loop
variable [CommSemiring R] {z : TBT R} (hz : WF z) {r : Nat} (hr : IsRoot z.tree r)

include hz hr in
/-- The product by the Gram matrix of the node. -/
theorem gramTmp_spec {g : Nat → Arr R} {j : Nat} (hj : IsNode z.tree j) (hl : j ∉ z.tree.dim2ind)
    (hg : ¬ IsRoot z.tree j → (g j).shape = [z.lastDim j, z.lastDim j]) :
    ∃ t, gramTmp z r g j = .ok t ∧ t.shape = (z.tensors j).shape ∧ ∀ u e, InBox ((z.tree.children j).map (childSize z)) u →
      InBox (rankShape z j) e → t.get (u ++ e) = sumBox (rankShape z j) (fun e' =>
        aboveM (fun c s s' => (g c).get [s, s']) r j e e' * (z.tensors j).get (u ++ e')) := by
  have hsh := (hz.node j hj hl).2.1
  unfold gramTmp
  by_cases hjr : j = r
  · subst hjr
    rw [if_pos rfl]
    refine ⟨_, rfl, rfl, fun u e _ he => ?_⟩
    rw [← sumBox_pick he (fun e' => (z.tensors j).get (u ++ e'))]
    apply sumBox_congr
    intro e' _
    unfold aboveM
    rw [if_pos rfl, mul_comm]
  · have hnr : ¬ IsRoot z.tree j := fun h => hjr (root_unique hz.valid h hr)
    have hrk : rankShape z j = [z.lastDim j] := by have := hz.rs_eq hj hnr; rwa [rs_node hl] at this
    rw [if_neg hjr, tmp_single]
    rw [hrk] at hsh
    set cs := (z.tree.children j).map (childSize z) with hcs
    have hord : (z.tensors j).order - 1 = cs.length := by simp [Arr.order, hsh]
    have hgd : (z.tensors j).shape.getD cs.length 0 = z.lastDim j := by rw [hsh]; simp
    rw [hord]
    obtain ⟨t, t1, t2, t3⟩ := FullTensor.tmpStep_spec (z.tensors j) (g j) cs.length (z.lastDim j) (by simp [Arr.order, hsh])
      (by rw [hgd]; exact hg hnr)
    have hts : t.shape = (z.tensors j).shape := by
      rw [t2, hsh]; simp
    refine ⟨t, t1, hts, fun u e hu he => ?_⟩
    rw [hrk] at he
    obtain ⟨q, rfl, hq⟩ := inBox_single he
    rw [t3 _ (by rw [hts, hsh]; exact (inBox_append hu.length_eq).2 ⟨hu, he⟩), hgd, hrk, sumBox_singleton]
    refine sum_congr rfl (fun s _ => ?_)
    have hul := hu.length_eq
    unfold aboveM
    rw [if_neg hjr]
    have h1 : (u ++ [q]).set cs.length s = u ++ [s] := by rw [← hul]; simp
    have h2 : (u ++ [q]).getD cs.length 0 = q := by rw [← hul]; simp
    rw [h1, h2, mul_comm]
    rfl

include hz hr in
/-- The Gram matrices of the children of a node. -/
theorem gramNode_spec {keep : Nat → Bool} (hkeep : ∀ i, keep i = true → z.active i = true) {g : Nat → Arr R} {j : Nat}
    (hj : IsNode z.tree j) (hl : j ∉ z.tree.dim2ind)
    (hg : ¬ IsRoot z.tree j → (g j).shape = [z.lastDim j, z.lastDim j]) :
    ∃ g', gramNode z r keep g j = .ok g' ∧
      (∀ c, ¬ (Edge z.tree j c ∧ keep c = true) → g' c = g c) ∧
      ∀ c cs1 cs2, Edge z.tree j c → keep c = true → z.tree.children j = cs1 ++ c :: cs2 →
        (g' c).shape = [z.lastDim c, z.lastDim c] ∧ ∀ s s', s < z.lastDim c → s' < z.lastDim c →
        (g' c).get [s, s'] = sumBox (cs1.map (childSize z)) (fun t1 => sumBox (cs2.map (childSize z)) (fun t2 =>
          sumBox (rankShape z j) (fun e => sumBox (rankShape z j) (fun e' =>
            (z.tensors j).get ((t1 ++ s :: t2) ++ e) * aboveM (fun c s s' => (g c).get [s, s']) r j e e' *
              (z.tensors j).get ((t1 ++ s' :: t2) ++ e'))))) := by
  obtain ⟨tmp, h1, h2, h3⟩ := gramTmp_spec hz hr hj hl hg
  have hsh := (hz.node j hj hl).2.1
  unfold gramNode
  rw [h1]
  simp only [bind, Except.bind]
  -- one child
  have hone : ∀ c cs1 cs2, Edge z.tree j c → z.active c = true → z.tree.children j = cs1 ++ c :: cs2 → ∀ g0 : Nat → Arr R,
      ∃ t, gramChild z j tmp g0 c = .ok (upd g0 c t) ∧ t.shape = [z.lastDim c, z.lastDim c] ∧
      ∀ s s', s < z.lastDim c → s' < z.lastDim c →
        t.get [s, s'] = sumBox (cs1.map (childSize z)) (fun t1 => sumBox (cs2.map (childSize z)) (fun t2 =>
          sumBox (rankShape z j) (fun e => sumBox (rankShape z j) (fun e' =>
            (z.tensors j).get ((t1 ++ s :: t2) ++ e) * aboveM (fun c s s' => (g c).get [s, s']) r j e e' *
              (z.tensors j).get ((t1 ++ s' :: t2) ++ e'))))) := by
    intro c cs1 cs2 he hac hch g0
    have hcz : childSize z c = z.lastDim c := by unfold childSize; rw [if_pos hac]
    have hA : (z.tensors j).shape = cs1.map (childSize z) ++ z.lastDim c :: (cs2.map (childSize z) ++ rankShape z j) := by
      rw [hsh, hch, List.map_append, List.map_cons, hcz]; simp
    have hax : childAxis z.tree c = (cs1.map (childSize z)).length := by
      rw [childAxis_eq hz.valid he, hch]
      have hnd := nodup_children (T := z.tree) j
      rw [hch, List.nodup_append] at hnd
      have hnot : c ∉ cs1 := fun h => hnd.2.2 c h c (by simp) rfl
      rw [List.idxOf_append_of_notMem hnot]; simp
    obtain ⟨t, t1, t2, t3⟩ := tensordot_except (z.tensors j) tmp _ _ _ hA (by rw [h2]; exact hA)
    refine ⟨t, ?_, t2, fun s s' hs hs' => ?_⟩
    · unfold gramChild
      dsimp only
      rw [hax, t1]; rfl
    · rw [t3]
      apply sumBox_congr
      intro u1 hu1
      rw [sumBox_append]
      apply sumBox_congr
      intro u2 hu2
      apply sumBox_congr
      intro e he'
      have hbox : ∀ q, q < z.lastDim c → InBox ((z.tree.children j).map (childSize z)) (u1 ++ q :: u2) := by
        intro q hq
        rw [hch, List.map_append, List.map_cons, hcz]
        exact (inBox_append hu1.length_eq).2 ⟨hu1, .cons hq hu2⟩
      have a1 : u1 ++ s :: (u2 ++ e) = (u1 ++ s :: u2) ++ e := by simp
      have a2 : u1 ++ s' :: (u2 ++ e) = (u1 ++ s' :: u2) ++ e := by simp
      rw [a1, a2, h3 _ e (hbox s' hs') he', ← sumBox_mul_left]
      apply sumBox_congr
      intro e' _
      ring
  have key : ∀ (cs : List Nat) (g0 : Nat → Arr R), cs.Nodup → (∀ c ∈ cs, Edge z.tree j c ∧ z.active c = true) →
      ∃ g', cs.foldlM (gramChild z j tmp) g0 = .ok g' ∧ (∀ c, c ∉ cs → g' c = g0 c) ∧
      ∀ c ∈ cs, ∀ cs1 cs2, z.tree.children j = cs1 ++ c :: cs2 →
        (g' c).shape = [z.lastDim c, z.lastDim c] ∧ ∀ s s', s < z.lastDim c → s' < z.lastDim c →
        (g' c).get [s, s'] = sumBox (cs1.map (childSize z)) (fun t1 => sumBox (cs2.map (childSize z)) (fun t2 =>
          sumBox (rankShape z j) (fun e => sumBox (rankShape z j) (fun e' =>
            (z.tensors j).get ((t1 ++ s :: t2) ++ e) * aboveM (fun c s s' => (g c).get [s, s']) r j e e' *
              (z.tensors j).get ((t1 ++ s' :: t2) ++ e'))))) := by
    intro cs
    induction cs with
    | nil => intro g0 _ _; exact ⟨g0, rfl, fun _ _ => rfl, fun c hc => by simp at hc⟩
    | cons c cs ih =>
      intro g0 hnd hm
      rw [List.nodup_cons] at hnd
      obtain ⟨he, hac⟩ := hm c (by simp)
      obtain ⟨cs1, cs2, hch⟩ := List.append_of_mem ((mem_children j c hj).2 he)
      obtain ⟨t, t1, _, _⟩ := hone c cs1 cs2 he hac hch g0
      obtain ⟨g', i1, i2, i3⟩ := ih (upd g0 c t) hnd.2 (fun c' hc' => hm c' (by simp [hc']))
      refine ⟨g', ?_, ?_, ?_⟩
      · rw [List.foldlM_cons, t1]; exact i1
      · intro c' hc'
        rw [List.mem_cons, not_or] at hc'
        rw [i2 c' hc'.2, upd, if_neg hc'.1]
      · intro c' hc' ds1 ds2 hch'
        rcases List.mem_cons.1 hc' with rfl | hc''
        · rw [i2 c' hnd.1]
          have : upd g0 c' t c' = t := by simp [upd]
          rw [this]
          obtain ⟨t', u1, u2, u3⟩ := hone c' ds1 ds2 he hac hch' g0
          rw [t1] at u1
          have hup : upd g0 c' t c' = upd g0 c' t' c' := by rw [Except.ok.inj u1]
          simp only [upd, if_true] at hup
          rw [hup]
          exact ⟨u2, u3⟩
        · exact i3 c' hc'' ds1 ds2 hch'
  obtain ⟨g', k1, k2, k3⟩ := key ((z.tree.children j).filter keep) g ((nodup_children (T := z.tree) j).filter _)
    (by
      intro c hc
      obtain ⟨a, b⟩ := List.mem_filter.1 hc
      exact ⟨(mem_children j c hj).1 a, hkeep c b⟩)
  refine ⟨g', k1, ?_, ?_⟩
  · intro c hc
    apply k2
    intro hm
    obtain ⟨a, b⟩ := List.mem_filter.1 hm
    exact hc ⟨(mem_children j c hj).1 a, b⟩
  · intro c cs1 cs2 he hk hch
    exact k3 c (List.mem_filter.2 ⟨(mem_children j c hj).2 he, hk⟩) cs1 cs2 hch

include hz hr in
/-- The loops of `gramians` compute the matrices of the recurrence. -/
theorem gramLoop_spec {keep : Nat → Bool} (hkeep : ∀ i, keep i = true → z.active i = true)
    (hup : ∀ j c, Edge z.tree j c → keep c = true → keep j = true) {lev : Nat → Nat}
    (hlev : ∀ j k, HasLevel z.tree j k → lev j = k) {L : Nat}
    (hL : ∀ j c, Edge z.tree j c → keep c = true → lev j ≤ L) :
    ∃ g, gramLoop z keep lev L = .ok g ∧
      (∀ c, IsNode z.tree c → ¬ IsRoot z.tree c → keep c = true → (g c).shape = [z.lastDim c, z.lastDim c]) ∧
      EnvRec z r (fun c => keep c = true) (fun c s s' => (g c).get [s, s']) ∧ (g r).shape = [1, 1] ∧ (g r).get [0, 0] = 1 ∧
      ∀ c, c ≠ r → keep c = false → (g c).shape = [] := by
  obtain ⟨r', hr1, hr2⟩ := root_ok hz.valid
  have hrr := root_unique hz.valid hr hr2
  subst hrr
  unfold gramLoop
  rw [hr1]
  simp only [bind, Except.bind]
  let Inv : (Nat → Arr R) → (Nat → Prop) → Prop := fun g P =>
    (∀ c, P c → ∀ j, Edge z.tree j c → P j) ∧ g r = ⟨[1, 1], fun _ => 1⟩ ∧ (∀ c, c ≠ r → keep c = false → (g c).shape = []) ∧
    ∀ j c cs1 cs2, P j → Edge z.tree j c → keep c = true → z.tree.children j = cs1 ++ c :: cs2 →
      (g c).shape = [z.lastDim c, z.lastDim c] ∧ ∀ s s', s < z.lastDim c → s' < z.lastDim c →
        (g c).get [s, s'] = sumBox (cs1.map (childSize z)) (fun t1 => sumBox (cs2.map (childSize z)) (fun t2 =>
          sumBox (rankShape z j) (fun e => sumBox (rankShape z j) (fun e' =>
            (z.tensors j).get ((t1 ++ s :: t2) ++ e) * aboveM (fun c s s' => (g c).get [s, s']) r j e e' *
              (z.tensors j).get ((t1 ++ s' :: t2) ++ e')))))
  obtain ⟨g, g1, _, g2, g4, g3⟩ := topDown hz.valid hlev (gramNode z r keep) (fun i => i ∉ z.tree.dim2ind ∧ keep i = true)
    (fun l => (internalAt z.tree lev l).filter keep)
    (by
      intro l i
      unfold internalAt DTree.nodesWithLevel
      rw [List.mem_filter, List.mem_filter, List.mem_filter, mem_nodes]
      simp only [beq_iff_eq, Bool.not_eq_true', ← Bool.not_eq_true, isLeaf_mem]
      tauto)
    (by
      intro l
      unfold internalAt DTree.nodesWithLevel
      exact (((nodup_nodes (T := z.tree)).filter _).filter _).filter _)
    Inv
    (by
      rintro g P i ⟨p1, p2, p4, p3⟩ hi ⟨hil, hik⟩ hPi hpar hch
      have hpar' : ∀ p, Edge z.tree p i → P p := fun p he => hpar p he ⟨edge_internal hz.valid he, hup p i he hik⟩
      obtain ⟨g', s1, s2, s3⟩ := gramNode_spec hz hr hkeep hi hil (g := g) (by
        intro hir
        obtain ⟨p, he⟩ : ∃ p, Edge z.tree p i := by
          by_contra hno; exact hir ⟨hi, fun p hp => hno ⟨p, hp⟩⟩
        obtain ⟨cs1, cs2, hc⟩ := List.append_of_mem ((mem_children p i he.1).2 he)
        exact (p3 p i cs1 cs2 (hpar' p he) he hik hc).1)
      refine ⟨g', s1, ?_, ?_, ?_, ?_⟩
      · rintro c (hc | rfl) j he
        · exact .inl (p1 c hc j he)
        · exact .inl (hpar' j he)
      · rw [s2 r (fun h => hr.2 i h.1)]; exact p2
      · intro c hcr hck
        rw [s2 c (fun h => by rw [hck] at h; simp at h)]
        exact p4 c hcr hck
      · intro j c cs1 cs2 hj he hk hc
        have hsame : ∀ j, (P j ∨ j = i) → g' j = g j := by
          intro j hj
          apply s2
          rintro ⟨he', _⟩
          rcases hj with hj | rfl
          · exact hch j he' hj
          · exact edge_ne hz.valid he' rfl
        have hab : ∀ e e', aboveM (fun c s s' => (g' c).get [s, s']) r j e e' = aboveM (fun c s s' => (g c).get [s, s']) r j e e' := by
          intro e e'
          unfold aboveM
          simp only [hsame j hj]
        simp only [hab]
        rcases hj with hj | rfl
        · have hci : ¬ (Edge z.tree i c ∧ keep c = true) := by
            rintro ⟨he', _⟩
            exact hPi (hz.valid.unique_parent _ _ _ he' he ▸ hj)
          rw [s2 c hci]
          exact p3 j c cs1 cs2 hj he hk hc
        · exact s3 c cs1 cs2 he hk hc)
    (L + 1) (upd (fun _ => ⟨[], fun _ => 0⟩) r ⟨[1, 1], fun _ => 1⟩)
    ⟨fun _ h => h.elim, by simp [upd], fun c hc _ => by simp [upd, hc], fun _ _ _ _ h => h.elim⟩
  have hin : ∀ j c, Edge z.tree j c → keep c = true → IsNode z.tree j ∧ (j ∉ z.tree.dim2ind ∧ keep j = true) ∧ lev j < L + 1 :=
    fun j c he hk => ⟨he.1, ⟨edge_internal hz.valid he, hup j c he hk⟩, by have := hL j c he hk; omega⟩
  refine ⟨g, g1, ?_, ?_, by rw [g2], by rw [g2], g4⟩
  · intro c hc hcr hk
    obtain ⟨p, he⟩ : ∃ p, Edge z.tree p c := by
      by_contra hno; exact hcr ⟨hc, fun p hp => hno ⟨p, hp⟩⟩
    obtain ⟨cs1, cs2, hch⟩ := List.append_of_mem ((mem_children p c he.1).2 he)
    exact (g3 p c cs1 cs2 (hin p c he hk) he hk hch).1
  · intro j c cs1 cs2 he _ hk hch s s' hs hs'
    exact (g3 j c cs1 cs2 (hin j c he hk) he hk hch).2 s s' hs hs'

end loop
end Verif.TreeBased
