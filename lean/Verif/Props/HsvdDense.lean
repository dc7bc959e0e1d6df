import Verif.Lemmas.HsvdDense
import Verif.Lemmas.BottomUp
import Verif.Props.DimensionTreeCtor
import Verif.Lemmas.SvdExists

/-!
# Truncated singular value decomposition in tree-based format of a dense tensor (C74), and in tensor-train format (C75)
-/

namespace Verif.DimTree

open Verif.Arr

/-- `bottomUp` for the levels from the deepest one to one. -/
theorem bottomUp1 {T : DTree} (hV : Valid T) {lev : Nat → Nat} (hlev : ∀ j k, HasLevel T j k → lev j = k) {S : Type}
    (step : S → Nat → Py S) (Inv : S → (Nat → Prop) → Prop)
    (hstep : ∀ s P i, Inv s P → IsNode T i → ¬ IsRoot T i → ¬ P i → (∀ c, Edge T i c → P c) →
      (∀ p, Edge T p i → ¬ P p) → ∃ s', step s i = .ok s' ∧ Inv s' (fun j => P j ∨ j = i))
    (s : S) (h : Inv s (fun _ => False)) :
    ∃ s', ((List.range (T.maxLevel lev)).map (· + 1)).reverse.foldlM (fun s l => (T.nodesWithLevel lev l).foldlM step s) s = .ok s' ∧
      Inv s' (fun i => IsNode T i ∧ ¬ IsRoot T i) := by
  have hlev0 : ∀ i, IsNode T i → (lev i = 0 ↔ IsRoot T i) := by
    intro i hi
    obtain ⟨k, hk⟩ := exists_level hV hi
    rw [hlev i k hk]
    constructor
    · rintro rfl; cases hk; assumption
    · intro h; exact HasLevel.unique hV.unique_parent hk (.root h)
  set nodesAt : Nat → List Nat := fun l => if l = 0 then [] else T.nodesWithLevel lev l with hnodes
  have h0 : (fun i => IsNode T i ∧ ¬ IsRoot T i ∧ T.maxLevel lev + 1 ≤ lev i) = fun _ => False := by
    funext i
    apply propext
    constructor
    · rintro ⟨a, _, b⟩
      have := lev_le_maxLevel (T := T) lev a
      omega
    · exact False.elim
  obtain ⟨s', e1, e2⟩ := bottomUp hV hlev step (fun i => ¬ IsRoot T i) nodesAt
    (by
      intro l i
      simp only [hnodes]
      by_cases h0 : l = 0
      · subst h0
        simp only [if_true, List.not_mem_nil, false_iff]
        rintro ⟨a, b, c⟩
        exact c ((hlev0 i a).1 b)
      · rw [if_neg h0]
        unfold DTree.nodesWithLevel
        rw [List.mem_filter, mem_nodes]
        simp only [beq_iff_eq]
        constructor
        · rintro ⟨a, b⟩
          exact ⟨a, b, fun h => h0 (by rw [← b]; exact (hlev0 i a).2 h)⟩
        · rintro ⟨a, b, _⟩
          exact ⟨a, b⟩)
    (by
      intro l
      simp only [hnodes]
      split
      · exact List.nodup_nil
      · unfold DTree.nodesWithLevel
        exact (nodup_nodes (T := T)).filter _)
    Inv (fun s P i a b c d e f => hstep s P i a b c d (fun c he => e c he (fun hr => hr.2 i he)) f) (T.maxLevel lev + 1) s (by rw [h0]; exact h)
  refine ⟨s', ?_, e2⟩
  rw [List.range_succ_eq_map, List.reverse_cons, List.foldlM_append] at e1
  have hcongr : ∀ (ls : List Nat) (ts : S), (∀ l ∈ ls, l ≠ 0) →
      ls.foldlM (fun ts l => (nodesAt l).foldlM step ts) ts = ls.foldlM (fun ts l => (T.nodesWithLevel lev l).foldlM step ts) ts := by
    intro ls
    induction ls with
    | nil => intros; rfl
    | cons l ls ih =>
      intro ts h
      rw [List.foldlM_cons, List.foldlM_cons]
      simp only [hnodes, if_neg (h l (by simp))]
      congr 1; funext ts'
      exact ih ts' (fun l' hl' => h l' (by simp [hl']))
  rw [hcongr _ _ (by intro l hl; simp at hl; omega)] at e1
  show ((List.range (T.maxLevel lev)).map Nat.succ).reverse.foldlM (fun ts l => (T.nodesWithLevel lev l).foldlM step ts) s = .ok s'
  generalize ((List.range (T.maxLevel lev)).map Nat.succ).reverse.foldlM (fun ts l => (T.nodesWithLevel lev l).foldlM step ts) s = q at e1
  cases q with
  | error => simp [bind, Except.bind] at e1
  | ok q =>
    simp only [bind, Except.bind, List.foldlM_cons, List.foldlM_nil, hnodes, if_true, pure, Except.pure] at e1
    exact e1

end Verif.DimTree

namespace Verif.Truncation

open Verif.Arr Finset Verif.TreeBased Verif.DimTree Verif.Projection Verif.FullTensor

/-- The positions of nodes. -/
theorem positions {cs ns : List Nat} (hcs : cs.Nodup) (hns : ns.Nodup) (h : ∀ c ∈ cs, c ∈ ns) :
    ∃ rep, cs.mapM (positionIn ns) = .ok rep ∧ rep.Nodup ∧ (∀ k ∈ rep, k < ns.length) ∧ entriesAt rep ns = cs ∧
      (entriesOff rep ns).Nodup ∧ ∀ j, j ∈ entriesOff rep ns ↔ j ∈ ns ∧ j ∉ cs := by
  have hat : entriesAt (cs.map ns.idxOf) ns = cs := by
    unfold entriesAt
    rw [List.map_map]
    conv_rhs => rw [← List.map_id cs]
    apply List.map_congr_left
    intro c hc
    have hl := List.idxOf_lt_length_of_mem (h c hc)
    rw [Function.comp_apply, List.getD_eq_getElem _ _ hl, List.getElem_idxOf hl]; rfl
  have hnd : (cs.map ns.idxOf).Nodup := by
    apply List.Nodup.of_map (fun k => ns.getD k 0)
    show (entriesAt (cs.map ns.idxOf) ns).Nodup
    rw [hat]; exact hcs
  have hlt : ∀ k ∈ cs.map ns.idxOf, k < ns.length := by
    intro k hk
    obtain ⟨c, hc, rfl⟩ := List.mem_map.1 hk
    exact List.idxOf_lt_length_of_mem (h c hc)
  have hperm : (cs ++ entriesOff (cs.map ns.idxOf) ns).Perm ns := by
    have := (dims_append_perm hnd hlt).map (fun k => ns.getD k 0)
    rw [List.map_append] at this
    have e1 : (List.range ns.length).map (fun k => ns.getD k 0) = ns := entriesAt_range ns
    rw [e1] at this
    have e2 : (cs.map ns.idxOf).map (fun k => ns.getD k 0) = cs := hat
    rw [e2] at this
    rw [entriesOff_perm _ ns _ rfl]
    exact this
  have hnd2 : (cs ++ entriesOff (cs.map ns.idxOf) ns).Nodup := hperm.nodup_iff.2 hns
  obtain ⟨_, n2, n3⟩ := List.nodup_append.1 hnd2
  refine ⟨cs.map ns.idxOf, ?_, hnd, hlt, hat, n2, ?_⟩
  · rw [mapM_ok_iff, List.forall₂_map_right_iff, List.forall₂_same]
    intro c hc
    unfold positionIn
    rw [if_pos (h c hc)]
  · intro j
    have hm := hperm.mem_iff (a := j)
    rw [List.mem_append] at hm
    constructor
    · intro hj
      exact ⟨hm.1 (.inr hj), fun hc => n3 j hc j hj rfl⟩
    · rintro ⟨h1, h2⟩
      exact (hm.2 h1).resolve_left h2

/-- The expansion with the coefficients of `cur` is the orthogonal projection of `x`. -/
theorem Iso.proj {x cur : Arr ℝ} {s E ns : List Nat} {φ : Nat → List Nat → Nat → ℝ} {sz : Nat → Nat} (h : Iso x s E cur ns φ sz)
    {b : List Nat → ℝ} {e : List Nat} (he : InBox E e)
    (hb : ∀ p, InBox s p → b p = sumBox (ns.map sz) (fun t => axP φ ns p t * cur.get (t ++ e))) :
    sumBox s (fun p => b p ^ 2) = sumBox (ns.map sz) (fun t => cur.get (t ++ e) ^ 2) ∧
    sumBox s (fun p => (x.get (p ++ e) - b p) ^ 2) = sumBox s (fun p => x.get (p ++ e) ^ 2) - sumBox s (fun p => b p ^ 2) := by
  set B := ns.map sz
  have h1 : sumBox s (fun p => x.get (p ++ e) * b p) = sumBox B (fun t => cur.get (t ++ e) ^ 2) := by
    have e1 : sumBox s (fun p => x.get (p ++ e) * b p) = sumBox s (fun p => sumBox B (fun t => cur.get (t ++ e) * (x.get (p ++ e) * axP φ ns p t))) := by
      apply sumBox_congr
      intro p hp
      rw [hb p hp, ← sumBox_mul_left]
      exact sumBox_congr (fun t _ => by ring)
    rw [e1, sumBox_comm]
    apply sumBox_congr
    intro t ht
    rw [sumBox_mul_left, ← h.val t e ht he, pow_two]
  have h2 : sumBox s (fun p => b p ^ 2) = sumBox B (fun t => cur.get (t ++ e) ^ 2) := by
    have e1 : sumBox s (fun p => b p ^ 2) = sumBox s (fun p => sumBox B (fun t => sumBox B (fun t' =>
        cur.get (t ++ e) * cur.get (t' ++ e) * (axP φ ns p t * axP φ ns p t')))) := by
      apply sumBox_congr
      intro p hp
      rw [hb p hp, pow_two, ← sumBox_mul_right]
      apply sumBox_congr
      intro t _
      rw [← sumBox_mul_left]
      exact sumBox_congr (fun t' _ => by ring)
    rw [e1, sumBox_comm]
    apply sumBox_congr
    intro t ht
    rw [sumBox_comm, pow_two, ← sumBox_pick ht (fun t' => cur.get (t ++ e) * cur.get (t' ++ e))]
    apply sumBox_congr
    intro t' ht'
    rw [sumBox_mul_left, h.iso t t' ht ht']
  refine ⟨h2, ?_⟩
  have e1 : sumBox s (fun p => (x.get (p ++ e) - b p) ^ 2) + 2 * sumBox s (fun p => x.get (p ++ e) * b p) =
      sumBox s (fun p => x.get (p ++ e) ^ 2) + sumBox s (fun p => b p ^ 2) := by
    rw [← sumBox_mul_left, ← sumBox_add, ← sumBox_add]
    exact sumBox_congr (fun p _ => by ring)
  rw [h1, ← h2] at e1
  linarith

open Classical in
/-- The state of the loop of `hsvdDense` when the nodes `P` have been visited. -/
structure DInv (T : DTree) (act : Nat → Bool) (ranks : List (Option Nat)) (tol : ℝ) (x : Arr ℝ) (s E : List Nat) (st : DenseState)
    (P : Nat → Prop) (φ : Nat → List Nat → Nat → ℝ) (sz : Nat → Nat) (err : Nat → ℝ) : Prop where
  iso : Iso x s E st.cur st.nodes φ sz
  nodup : st.nodes.Nodup
  visited : ∀ j, P j → IsNode T j
  mem : ∀ j, j ∈ st.nodes ↔ IsNode T j ∧ ((P j ∧ act j = true) ∨ j ∈ T.dim2ind) ∧ ∀ p, Edge T p j → ¬ P p
  raw : ∀ c ∈ T.dim2ind, ¬ (P c ∧ act c = true) → sz c = s.getD (dimOf T c) 0 ∧
    ∀ p a, φ c p a = if p.getD (dimOf T c) 0 = a then 1 else 0
  leaf : ∀ c ∈ T.dim2ind, P c → act c = true → (st.tensors c).shape = [s.getD (dimOf T c) 0, sz c] ∧
    ∀ p a, InBox s p → a < sz c → φ c p a = (st.tensors c).get [p.getD (dimOf T c) 0, a]
  node : ∀ i, P i → i ∉ T.dim2ind → (st.tensors i).shape = (T.children i).map sz ++ [sz i] ∧
    ∀ p l, φ i p l = sumBox ((T.children i).map sz) (fun a => (st.tensors i).get (a ++ [l]) * axP φ (T.children i) p a)
  off : ∀ c, P c → ¬ act c = true → st.tensors c = emptyArr
  rank : ∀ i, P i → act i = true → 1 ≤ sz i ∧ ∀ q, ranks[i - 1]? = some (some q) → sz i ≤ q
  orth : ∀ i, P i → act i = true → OrthoLast (st.tensors i)
  norm : nsq x.shape x.get = nsq st.cur.shape st.cur.get + ∑ j ∈ range (T.n + 1), if P j ∧ act j = true then err j else 0
  errle : ∀ j, P j → act j = true → 0 ≤ err j ∧ (ranks[j - 1]? = some none → 0 ≤ tol → err j ≤ tol ^ 2 * nsq x.shape x.get)

open Classical in
theorem DInv.step {svd : Svd} (hsv : SvdOk svd) {t : Truncator} (ht : t.param = none ∨ t.param = some 0) {T : DTree} (hV : Valid T)
    {act : Nat → Bool} (hact : ∀ i, IsNode T i → i ∉ T.dim2ind → act i = true) {ranks : List (Option Nat)} {tol : ℝ} {x : Arr ℝ} {s E : List Nat}
    (hx : x.shape = s ++ E) (hs : s.length = T.dim2ind.length) (hE : E.length ≤ 1) (hpos : ∀ n ∈ x.shape, 0 < n)
    {st : DenseState} {P : Nat → Prop} {φ : Nat → List Nat → Nat → ℝ} {sz : Nat → Nat} {err : Nat → ℝ}
    (h : DInv T act ranks tol x s E st P φ sz err) {i : Nat} (hi : IsNode T i) (hPi : ¬ P i) (hch : ∀ c, Edge T i c → P c)
    (hpar : ∀ p, Edge T p i → ¬ P p) {R : Option Nat} (hR : ranks[i - 1]? = some R) (hR0 : R ≠ some 0) :
    ∃ st' φ' sz' err', hsvdDenseStep svd t ranks tol T act (E.length == 1) st i = .ok st' ∧
      DInv T act ranks tol x s E st' (fun j => P j ∨ j = i) φ' sz' err' := by
  by_cases ha : act i = true
  swap
  · -- an inactive leaf
    have hil : i ∈ T.dim2ind := by by_contra hn; exact ha (hact i hi hn)
    have hno := ((hV.leaves i).1 hil).2
    have hiff : ∀ j, ((P j ∨ j = i) ∧ act j = true) ↔ (P j ∧ act j = true) := by
      intro j
      constructor
      · rintro ⟨h1 | rfl, h2⟩
        · exact ⟨h1, h2⟩
        · exact absurd h2 ha
      · rintro ⟨h1, h2⟩; exact ⟨.inl h1, h2⟩
    refine ⟨{ st with tensors := upd st.tensors i emptyArr }, φ, sz, err, ?_, ?_⟩
    · unfold hsvdDenseStep; rw [if_neg ha]
    · have hne : ∀ j, (P j ∨ j = i) → act j = true → j ≠ i ∧ P j := by
        intro j h1 h2
        have : j ≠ i := fun e => ha (e ▸ h2)
        exact ⟨this, h1.resolve_right this⟩
      have hu : ∀ j, j ≠ i → upd st.tensors i emptyArr j = st.tensors j := fun j hj => by unfold upd; rw [if_neg hj]
      refine ⟨h.iso, h.nodup, fun j hj => hj.elim (h.visited j) (fun e => e ▸ hi), ?_, ?_, ?_, ?_, ?_, ?_, ?_, ?_, ?_⟩
      · intro j
        rw [h.mem j, hiff]
        constructor
        · rintro ⟨a, b, c⟩
          exact ⟨a, b, fun p hp hh => hh.elim (c p hp) (fun e => hno j (e ▸ hp))⟩
        · rintro ⟨a, b, c⟩
          exact ⟨a, b, fun p hp hh => c p hp (.inl hh)⟩
      · intro c hc hn
        rw [hiff] at hn
        exact h.raw c hc hn
      · intro c hc h1 h2
        obtain ⟨e1, e2⟩ := hne c h1 h2
        show (upd st.tensors i emptyArr c).shape = _ ∧ _
        simp only [hu c e1]
        exact h.leaf c hc e2 h2
      · intro j h1 h2
        have e1 : j ≠ i := fun e => h2 (e ▸ hil)
        simp only [hu j e1]
        exact h.node j (h1.resolve_right e1) h2
      · intro c h1 h2
        by_cases e : c = i
        · subst e; simp [upd]
        · simp only [hu c e]
          exact h.off c (h1.resolve_right e) h2
      · intro j h1 h2
        exact h.rank j (hne j h1 h2).2 h2
      · intro j h1 h2
        obtain ⟨e1, e2⟩ := hne j h1 h2
        simp only [hu j e1]
        exact h.orth j e2 h2
      · simp only [hiff]; exact h.norm
      · intro j h1 h2
        exact h.errle j (hne j h1 h2).2 h2
  -- an active node
  set cs := hsvdAxes T i with hcs
  have hcsl : i ∈ T.dim2ind → cs = [i] := fun hl => by rw [hcs]; unfold hsvdAxes; rw [if_pos ((isLeaf_mem _ _).2 hl)]
  have hcsn : i ∉ T.dim2ind → cs = T.children i := fun hl => by rw [hcs]; unfold hsvdAxes; rw [if_neg (fun h' => hl ((isLeaf_mem _ _).1 h'))]
  have hnoself : ∀ j, Edge T j j → False := fun j he => edge_ne hV he rfl
  have hin : i ∈ st.nodes ↔ i ∈ T.dim2ind := by
    rw [h.mem i]
    constructor
    · rintro ⟨_, b | b, _⟩
      · exact absurd b.1 hPi
      · exact b
    · intro b; exact ⟨hi, .inr b, hpar⟩
  have hcs_mem : ∀ c ∈ cs, c ∈ st.nodes := by
    intro c hc
    by_cases hl : i ∈ T.dim2ind
    · rw [hcsl hl] at hc
      simp at hc; subst hc
      exact hin.2 hl
    · rw [hcsn hl] at hc
      have he := (mem_children i c hi).1 hc
      rw [h.mem c]
      refine ⟨he.2.1, ?_, fun p hp => ?_⟩
      · by_cases hcl : c ∈ T.dim2ind
        · exact .inr hcl
        · exact .inl ⟨hch c he, hact c he.2.1 hcl⟩
      · rw [hV.unique_parent p i c hp he]; exact hPi
  have hcsnd : cs.Nodup := by
    by_cases hl : i ∈ T.dim2ind
    · rw [hcsl hl]; simp
    · rw [hcsn hl]; exact nodup_children i
  obtain ⟨rep, r1, r2, r3, r4, r5, r6⟩ := positions hcsnd h.nodup hcs_mem
  have hcurpos : ∀ n ∈ st.cur.shape, 0 < n := by
    rw [h.iso.shape]
    intro n hn
    rcases List.mem_append.1 hn with hn | hn
    · obtain ⟨j, hj, rfl⟩ := List.mem_map.1 hn
      exact h.iso.pos j hj
    · exact hpos n (by rw [hx]; simp [hn])
  obtain ⟨u, y, r, tail, s1, s2, s3, s4⟩ := hsvdSplit_spec svd hsv t ht R hR0 tol st.cur (st.nodes.map sz) E rep hE h.iso.shape hcurpos r2
    (by simpa using r3)
  have hni : i ∉ entriesOff rep st.nodes := by
    rw [r6]
    rintro ⟨h1, h2⟩
    apply h2
    rw [hcsl (hin.1 h1)]; simp
  have hiso := h.iso.step r2 r3 s2 i hni
  rw [r4] at hiso
  have hsh : u.shape = cs.map sz ++ [r] := by rw [s2.ushape, ← map_entriesAt sz rep st.nodes r3, r4]
  refine ⟨⟨y, entriesOff rep st.nodes ++ [i], upd st.tensors i u⟩, _, _, fun j => if j = i then tail else err j, ?_, ⟨hiso, ?_, fun j hj => hj.elim (h.visited j) (fun e => e ▸ hi), ?_, ?_, ?_, ?_, ?_, ?_, ?_, ?_, ?_⟩⟩
  · unfold hsvdDenseStep rankAt
    rw [if_pos ha, hR, ← hcs, r1]
    rw [List.length_map] at s1
    simp only [bind, Except.bind, s1]
    rw [← entriesOff_perm rep st.nodes _ rfl]
  · exact List.nodup_append.2 ⟨r5, by simp, fun a ha' b hb e => by rw [List.mem_singleton] at hb; rw [e, hb] at ha'; exact hni ha'⟩
  · intro j
    rw [List.mem_append, r6, List.mem_singleton]
    by_cases hji : j = i
    · subst hji
      refine ⟨fun _ => ⟨hi, .inl ⟨.inr rfl, ha⟩, fun p hp hh => hh.elim (hpar p hp) (fun e => hnoself j (e ▸ hp))⟩, fun _ => .inr rfl⟩
    · have e1 : ((P j ∨ j = i) ∧ act j = true) ↔ (P j ∧ act j = true) := by simp [hji]
      rw [e1]
      simp only [hji, or_false]
      rw [h.mem j]
      by_cases hl : i ∈ T.dim2ind
      · rw [hcsl hl]
        have hno := ((hV.leaves i).1 hl).2
        constructor
        · rintro ⟨⟨a, b, c⟩, _⟩
          exact ⟨a, b, fun p hp hh => hh.elim (c p hp) (fun e => hno j (e ▸ hp))⟩
        · rintro ⟨a, b, c⟩
          exact ⟨⟨a, b, fun p hp hh => c p hp (.inl hh)⟩, by simpa using hji⟩
      · rw [hcsn hl, mem_children i j hi]
        constructor
        · rintro ⟨⟨a, b, c⟩, d⟩
          exact ⟨a, b, fun p hp hh => hh.elim (c p hp) (fun e => d (e ▸ hp))⟩
        · rintro ⟨a, b, c⟩
          exact ⟨⟨a, b, fun p hp hh => c p hp (.inl hh)⟩, fun hp => c i hp (.inr rfl)⟩
  · intro c hc hn
    have hne : c ≠ i := fun e => hn ⟨.inr e, e ▸ ha⟩
    have := h.raw c hc (fun hh => hn ⟨.inl hh.1, hh.2⟩)
    simp only [if_neg hne]
    exact this
  · intro c hc h1 h2
    by_cases hci : c = i
    · subst hci
      have hdim : dimOf T c < s.length := by rw [hs]; exact List.idxOf_lt_length_of_mem hc
      obtain ⟨q1, q2⟩ := h.raw c hc (fun hh => hPi hh.1)
      simp only [upd, if_true]
      rw [hsh, hcsl hc]
      refine ⟨by simp [q1], ?_⟩
      intro p a hp hal
      show sumBox ([sz c]) (fun b => u.get (b ++ [a]) * axP φ [c] p b) = _
      rw [sumBox_singleton, q1, sum_eq_single_of_mem (p.getD (dimOf T c) 0) (mem_range.2 (((inBox_iff_getD _ _).1 hp).2 _ hdim))]
      · simp [axP, q2]
      · intro b _ hb
        have : axP φ [c] p [b] = 0 := by simp only [axP, List.zipWith_cons_cons, List.zipWith_nil_left, List.prod_cons, q2, if_neg (Ne.symm hb), zero_mul]
        rw [this, mul_zero]
    · simp only [upd, if_neg hci]
      exact h.leaf c hc (h1.resolve_right hci) h2
  · intro j h1 h2
    by_cases hji : j = i
    · subst hji
      have e1 : ∀ c ∈ T.children j, c ≠ j := fun c hc e => hnoself j (by have := (mem_children j c hi).1 hc; rwa [e] at this)
      have e2 : (T.children j).map (fun k => if k = j then r else sz k) = (T.children j).map sz :=
        List.map_congr_left (fun c hc => if_neg (e1 c hc))
      rw [e2]
      simp only [upd, if_true]
      refine ⟨by rw [hsh, hcsn h2], ?_⟩
      intro p l
      rw [hcsn h2]
      apply sumBox_congr
      intro a _
      congr 1
      apply axP_congr
      intro c hc
      rw [if_neg (e1 c hc)]
    · have hPj := h1.resolve_right hji
      obtain ⟨q1, q2⟩ := h.node j hPj h2
      have hj := h.visited j hPj
      have e1 : ∀ c ∈ T.children j, c ≠ i := fun c hc e => hpar j (by rw [← e]; exact (mem_children j c hj).1 hc) hPj
      have e2 : (T.children j).map (fun k => if k = i then r else sz k) = (T.children j).map sz :=
        List.map_congr_left (fun c hc => if_neg (e1 c hc))
      rw [e2]
      simp only [upd, if_neg hji]
      refine ⟨q1, ?_⟩
      intro p l
      rw [q2]
      apply sumBox_congr
      intro a _
      congr 1
      apply axP_congr
      intro c hc
      rw [if_neg (e1 c hc)]
  · intro c h1 h2
    have hci : c ≠ i := fun e => h2 (e ▸ ha)
    simp only [upd, if_neg hci]
    exact h.off c (h1.resolve_right hci) h2
  · intro j h1 h2
    by_cases hji : j = i
    · subst hji
      simp only [if_true]
      refine ⟨s2.pos, fun q hq => s3 q ?_⟩
      rw [hR] at hq; exact Option.some.inj hq
    · simp only [if_neg hji]
      exact h.rank j (h1.resolve_right hji) h2
  · intro j h1 h2
    by_cases hji : j = i
    · subst hji
      simp only [upd, if_true]
      exact ⟨_, r, s2.ushape, s2.orth⟩
    · simp only [upd, if_neg hji]
      exact h.orth j (h1.resolve_right hji) h2
  · rw [h.norm, s2.norm, add_assoc]
    congr 1
    have hir : i ∈ range (T.n + 1) := mem_range.2 (by have := hi.2; omega)
    rw [← add_sum_erase _ _ hir]
    refine Eq.trans ?_ (add_sum_erase (range (T.n + 1)) _ hir)
    rw [if_neg (fun hh => hPi hh.1), if_pos ⟨.inr rfl, ha⟩, if_pos rfl, zero_add]
    congr 1
    refine sum_congr rfl (fun j hj => ?_)
    have hji := (mem_erase.1 hj).1
    simp [hji]
  · intro j h1 h2
    by_cases hji : j = i
    · subst hji
      simp only [if_true]
      refine ⟨s2.tail_nonneg, fun hn h0 => ?_⟩
      rw [hR] at hn
      refine (s4 (Option.some.inj hn) h0).trans ?_
      refine mul_le_mul_of_nonneg_left ?_ (sq_nonneg _)
      rw [h.norm]
      have : 0 ≤ ∑ j ∈ range (T.n + 1), if P j ∧ act j = true then err j else 0 := sum_nonneg (fun j _ => by
        split
        · rename_i hh; exact (h.errle j hh.1 hh.2).1
        · exact le_rfl)
      linarith
    · simp only [if_neg hji]
      exact h.errle j (h1.resolve_right hji) h2


theorem DInv.init {T : DTree} (hV : Valid T) {act : Nat → Bool} {ranks : List (Option Nat)} {tol : ℝ} {x : Arr ℝ} {s E : List Nat}
    (hx : x.shape = s ++ E) (hs : s.length = T.dim2ind.length) (hpos : ∀ n ∈ x.shape, 0 < n) (ts : Nat → Arr ℝ) :
    DInv T act ranks tol x s E ⟨x, T.dim2ind, ts⟩ (fun _ => False)
      (fun c p a => if p.getD (dimOf T c) 0 = a then 1 else 0) (fun c => s.getD (dimOf T c) 0) (fun _ => 0) := by
  have hm : T.dim2ind.map (fun c => s.getD (dimOf T c) 0) = s := by
    apply ext_getD (by simp [hs])
    intro k hk
    have hk' : k < T.dim2ind.length := by simpa using hk
    rw [List.getD_eq_getElem _ _ (by simpa using hk'), List.getElem_map]
    unfold dimOf
    rw [hV.nodup.idxOf_getElem k hk']
  have hax : ∀ p t, p.length = s.length → t.length = s.length →
      axP (fun c p a => if p.getD (dimOf T c) 0 = a then (1 : ℝ) else 0) T.dim2ind p t = if p = t then 1 else 0 := by
    intro p t hp ht
    rw [axP_eq _ _ _ _ (ht.trans hs)]
    by_cases hpt : p = t
    · subst hpt
      rw [if_pos rfl]
      apply List.prod_eq_one
      intro v hv
      obtain ⟨k, hk, rfl⟩ := List.mem_map.1 hv
      have hk' := List.mem_range.1 hk
      unfold dimOf
      rw [List.getD_eq_getElem _ _ hk', hV.nodup.idxOf_getElem k hk', if_pos rfl]
    · rw [if_neg hpt]
      apply List.prod_eq_zero
      have : ∃ k, k < T.dim2ind.length ∧ p.getD k 0 ≠ t.getD k 0 := by
        by_contra hno
        push Not at hno
        exact hpt (ext_getD (hp.trans ht.symm) (fun k hk => hno k (by omega)))
      obtain ⟨k, hk, hne⟩ := this
      refine List.mem_map.2 ⟨k, List.mem_range.2 hk, ?_⟩
      unfold dimOf
      rw [List.getD_eq_getElem _ _ hk, hV.nodup.idxOf_getElem k hk, if_neg hne]
  refine ⟨⟨by rw [hm]; exact hx, ?_, ?_, ?_⟩, hV.nodup, fun _ h => h.elim, ?_, fun _ _ _ => ⟨rfl, fun _ _ => rfl⟩, fun _ _ h => h.elim, fun _ h => h.elim,
    fun _ h => h.elim, fun _ h => h.elim, fun _ h => h.elim, ?_, fun _ h => h.elim⟩
  · intro c hc
    have hk : dimOf T c < s.length := by rw [hs]; exact List.idxOf_lt_length_of_mem hc
    rw [List.getD_eq_getElem _ _ hk]
    exact hpos _ (by rw [hx]; simp)
  · intro t e ht he
    rw [hm] at ht
    show x.get (t ++ e) = _
    rw [← sumBox_pick ht (fun p => x.get (p ++ e))]
    apply sumBox_congr
    intro p hp
    rw [hax p t hp.length_eq ht.length_eq]
    simp only [eq_comm]
  · intro t t' ht ht'
    rw [hm] at ht ht'
    have e1 : sumBox s (fun p => axP (fun c p a => if p.getD (dimOf T c) 0 = a then (1 : ℝ) else 0) T.dim2ind p t *
        axP (fun c p a => if p.getD (dimOf T c) 0 = a then (1 : ℝ) else 0) T.dim2ind p t') =
        sumBox s (fun p => (if p = t' then (1 : ℝ) else 0) * (if t = p then 1 else 0)) := by
      apply sumBox_congr
      intro p hp
      rw [hax p t hp.length_eq ht.length_eq, hax p t' hp.length_eq ht'.length_eq]
      simp only [eq_comm (a := p) (b := t)]
      ring
    rw [e1, sumBox_pick ht (fun p => if p = t' then (1 : ℝ) else 0)]
  · intro j
    constructor
    · intro hj; exact ⟨((hV.leaves j).1 hj).1, .inr hj, fun _ _ h => h⟩
    · rintro ⟨_, h | h, _⟩
      · exact h.1.elim
      · exact h
  · simp

open Classical in
/-- The number of nodes on which `hsvd` truncates. -/
theorem card_active {T : DTree} (hV : Valid T) {r : Nat} (hroot : IsRoot T r) {act : Nat → Bool} (har : act r = true) (e : ℝ) :
    (∑ j ∈ range (T.n + 1), if (IsNode T j ∧ ¬ IsRoot T j) ∧ act j = true then e else 0) =
      (((T.nodes.filter act).length - 1 : Nat) : ℝ) * e := by
  classical
  rw [← sum_filter, sum_const, nsmul_eq_mul]
  congr 2
  have h1 : (range (T.n + 1)).filter (fun j => (IsNode T j ∧ ¬ IsRoot T j) ∧ act j = true) = (T.nodes.filter act).toFinset.erase r := by
    ext j
    rw [mem_filter, mem_range, mem_erase, List.mem_toFinset, List.mem_filter, mem_nodes]
    constructor
    · rintro ⟨_, ⟨a, b⟩, c⟩
      exact ⟨fun h => b (h ▸ hroot), a, c⟩
    · rintro ⟨a, b, c⟩
      exact ⟨by have := b.2; omega, ⟨b, fun h => a (root_unique hV h hroot)⟩, c⟩
  have h2 : r ∈ (T.nodes.filter act).toFinset := by
    rw [List.mem_toFinset, List.mem_filter, mem_nodes]; exact ⟨hroot.1, har⟩
  convert congrArg Finset.card h1 using 1
  rw [card_erase_of_mem h2, List.toFinset_card_of_nodup ((nodup_nodes (T := T)).filter _)]


/-- C74. `hsvd` of a dense tensor `x` for a valid tree with at least two dimensions, the order of `x` being the number of
dimensions or one more (a rank axis for the root), where the inactive nodes are leaves; without thresholding, with a maximal
rank or one per node (`none`: infinity; not zero). The result is a tree-based tensor with this tree and these active nodes,
which represents a tensor of the shape of `x`. The tensors of the active nodes other than the root have orthonormal slices
along their last axis, and their ranks respect the maximal ranks. The error is orthogonal to the result. Without maximal
rank, the relative error is at most the tolerance. -/
theorem hsvdDense_spec (svd : Svd) (hsv : SvdOk svd) (t : Truncator) (ht : t.param = none ∨ t.param = some 0)
    (mr : List (Option Nat)) (T : DTree) (hV : Valid T) (ho : 2 ≤ T.dim2ind.length) (act : Nat → Bool)
    (hact : ∀ i, IsNode T i → i ∉ T.dim2ind → act i = true) (hmr : mr.length = 1 ∨ mr.length = T.n) (hmr0 : ∀ q ∈ mr, q ≠ some 0)
    (x : Arr ℝ) (hx : x.order = T.dim2ind.length ∨ x.order = T.dim2ind.length + 1) (hpos : ∀ n ∈ x.shape, 0 < n) :
    ∃ (z : TBT ℝ) (a : Arr ℝ), hsvdDense svd t mr T act x = .ok z ∧ WF z ∧ z.tree = T ∧ (∀ i, IsNode T i → z.active i = act i) ∧
      z.shape = x.shape.take T.dim2ind.length ∧ full z = .ok a ∧ a.shape = x.shape ∧
      (∀ i, IsNode T i → ¬ IsRoot T i → act i = true → OrthoLast (z.tensors i) ∧ 1 ≤ z.lastDim i ∧
        ∀ q, mr.getD (if mr.length = 1 then 0 else i - 1) none = some q → z.lastDim i ≤ q) ∧
      sumBox x.shape (fun i => (x.get i - a.get i) ^ 2) = sumBox x.shape (fun i => x.get i ^ 2) - sumBox x.shape (fun i => a.get i ^ 2) ∧
      (0 ≤ t.tolerance → (∀ q ∈ mr, q = none) →
        sumBox x.shape (fun i => (x.get i - a.get i) ^ 2) ≤ t.tolerance ^ 2 * sumBox x.shape (fun i => x.get i ^ 2)) := by
  classical
  obtain ⟨r, hr, hroot⟩ := root_ok hV
  obtain ⟨lev, hlv, hlev⟩ := level_ok hV
  have hrl := Shaped.root_internal' hV ho hroot
  have har : act r = true := hact r hroot.1 hrl
  set d := T.dim2ind.length with hd
  set s := x.shape.take d with hs
  set E := x.shape.drop d with hE
  have hxo : x.shape.length = d ∨ x.shape.length = d + 1 := hx
  have hsl : s.length = d := by rw [hs, List.length_take]; omega
  have hEl : E.length ≤ 1 := by rw [hE, List.length_drop]; omega
  have hxs : x.shape = s ++ E := (List.take_append_drop d x.shape).symm
  have hrr : (x.order == d + 1) = (E.length == 1) := by
    have : E.length = x.order - d := by rw [hE, List.length_drop]; rfl
    rw [this]
    rcases hx with h | h <;> rw [h] <;> simp
  have hEpos : ∀ n ∈ E, n ≠ 0 := fun n hn => by have := hpos n (by rw [hxs]; simp [hn]); omega
  set ranks := ranksForTree mr T.n r with hranks
  set tol := t.tolerance / Real.sqrt (((T.nodes.filter act).length - 1 : Nat) : ℝ) with htol
  have hn2 : 2 ≤ T.n := by
    have h1 : T.dim2ind.length ≤ T.nodes.length := by
      apply List.Subperm.length_le
      exact hV.nodup.subperm (fun c hc => (mem_nodes c).2 ((hV.leaves c).1 hc).1)
    have h2 : T.nodes.length = T.n := by simp [DTree.nodes]
    omega
  have hin : ∀ i, IsNode T i → mr.getD (if mr.length = 1 then 0 else i - 1) none ∈ mr := by
    intro i hi
    have : (if mr.length = 1 then 0 else i - 1) < mr.length := by
      have := hi.1; have := hi.2
      split <;> omega
    rw [List.getD_eq_getElem _ _ this]; exact List.getElem_mem _
  have hrk : ∀ i, IsNode T i → ¬ IsRoot T i → ranks[i - 1]? = some (mr.getD (if mr.length = 1 then 0 else i - 1) none) := by
    intro i hi hir
    exact ranksForTree_get mr T.n r hmr hn2 i hi.1 hi.2 (fun e => hir (e ▸ hroot)) hroot.1.1
  obtain ⟨st, l1, φ, sz, err, hI⟩ := bottomUp1 hV hlev (hsvdDenseStep svd t ranks tol T act (E.length == 1))
    (fun st P => ∃ φ sz err, DInv T act ranks tol x s E st P φ sz err)
    (by
      rintro st P i ⟨φ, sz, err, hI⟩ hi hir hPi hch hpar
      obtain ⟨st', φ', sz', err', e1, e2⟩ := hI.step hsv ht hV hact hxs hsl hEl hpos hi hPi hch hpar (hrk i hi hir) (hmr0 _ (hin i hi))
      exact ⟨st', e1, φ', sz', err', e2⟩)
    ⟨x, T.dim2ind, fun _ => emptyArr⟩ ⟨_, _, _, DInv.init hV hxs hsl hpos _⟩
  -- the root
  set cs := T.children r with hcs
  have hmem : ∀ j, j ∈ st.nodes ↔ j ∈ cs := by
    intro j
    rw [hI.mem j, hcs, mem_children r j hroot.1]
    constructor
    · rintro ⟨h1, h2, h3⟩
      have hjr : ¬ IsRoot T j := by
        rcases h2 with h2 | h2
        · exact h2.1.2
        · exact fun h => Shaped.root_internal' hV ho h h2
      obtain ⟨p, he⟩ : ∃ p, Edge T p j := by
        by_contra hno; exact hjr ⟨h1, fun p hp => hno ⟨p, hp⟩⟩
      have hp := h3 p he
      have hpr : IsRoot T p := by
        by_contra hno; exact hp ⟨he.1, hno⟩
      rwa [root_unique hV hpr hroot] at he
    · intro he
      refine ⟨he.2.1, ?_, fun p hp hh => hh.2 ?_⟩
      · by_cases hl : j ∈ T.dim2ind
        · exact .inr hl
        · exact .inl ⟨⟨he.2.1, fun h => h.2 r he⟩, hact j he.2.1 hl⟩
      · rw [hV.unique_parent p r j hp he]; exact hroot
  obtain ⟨rep, r1, r2, r3, r4, r5, r6⟩ := positions (nodup_children (T := T) r) hI.nodup (fun c hc => (hmem c).2 hc)
  have hoff : entriesOff rep st.nodes = [] := by
    rw [List.eq_nil_iff_forall_not_mem]
    intro j hj
    obtain ⟨h1, h2⟩ := (r6 j).1 hj
    exact h2 ((hmem j).1 h1)
  set N := st.nodes.length with hN
  have hsd : setdiffRange N rep = [] := by
    have : (entriesOff rep st.nodes).length = (setdiffRange N rep).length := by
      rw [entriesOff_perm rep st.nodes N rfl]; simp [applyPerm]
    rw [hoff] at this
    exact List.length_eq_zero_iff.1 this.symm
  have hrp : rep.Perm (List.range N) := by
    have := dims_append_perm r2 r3
    rwa [hsd, List.append_nil] at this
  have hco : st.cur.order = N + E.length := by
    show st.cur.shape.length = _
    rw [hI.iso.shape]; simp [hN]
  set dims := rep ++ (if (E.length == 1) = true then [st.cur.order - 1] else []) with hdims
  have hdims' : dims = rep ++ (List.range E.length).map (· + N) := by
    rw [hdims, hco]
    congr 1
    generalize E.length = k at hEl ⊢
    have : k = 0 ∨ k = 1 := by omega
    rcases this with rfl | rfl
    · rfl
    · simp
  have hdp : dims.Perm (List.range st.cur.order) := by
    rw [hdims', hco, List.range_add]
    have : (List.range E.length).map (N + ·) = (List.range E.length).map (· + N) := List.map_congr_left (fun _ _ => by omega)
    rw [this]
    exact hrp.append_right _
  obtain ⟨c, c1, c2, c3, -⟩ := FullTensor.transpose_spec st.cur dims hdp
  have hap : ∀ v e : List Nat, v.length = N → e.length = E.length → entriesAt dims (v ++ e) = entriesAt rep v ++ e := by
    intro v e hv he
    rw [hdims', ← he]
    exact applyPerm_extend r3 hv
  have hcsh : c.shape = cs.map sz ++ E := by
    rw [c2, hI.iso.shape, hap _ _ (by simp [hN]) rfl, ← map_entriesAt sz rep st.nodes r3, r4]
  set z : TBT ℝ := ⟨T, upd st.tensors r c⟩ with hz
  have hzr : z.tensors r = c := by rw [hz]; simp [upd]
  have hzn : ∀ i, ¬ IsRoot T i → z.tensors i = st.tensors i := by
    intro i hi
    have : i ≠ r := fun e => hi (e ▸ hroot)
    rw [hz]; simp [upd, this]
  set ν : Nat → Nat := fun c => s.getD (dimOf T c) 0 with hν
  have hlr : ∀ j ∈ T.dim2ind, ¬ IsRoot T j := fun j hj h => Shaped.root_internal' hV ho h hj
  have hszl : ∀ j, IsNode T j → (if act j then sz j else ν j) = sz j := by
    intro j hj
    split
    · rfl
    · rename_i hn
      have hl : j ∈ T.dim2ind := by by_contra h; exact hn (hact j hj h)
      exact ((hI.raw j hl (fun hh => hn hh.2)).1).symm
  have hcm : ∀ i, IsNode T i → (T.children i).map (fun c => if act c then sz c else ν c) = (T.children i).map sz := by
    intro i hi
    apply List.map_congr_left
    intro c' hc
    exact hszl c' ((mem_children i c' hi).1 hc).2.1
  have hsh : Shaped z T act sz ν E := by
    refine ⟨rfl, ?_, ?_, hEpos, hEl, ?_, ?_, hact, ?_⟩
    · intro i h1 h2 h3
      exact (hI.rank i ⟨h1, h2⟩ h3).1
    · intro j hj
      have hk : dimOf T j < s.length := by rw [hsl]; exact List.idxOf_lt_length_of_mem hj
      rw [hν]
      dsimp only
      rw [List.getD_eq_getElem _ _ hk]
      exact hpos _ (by rw [hxs]; simp)
    · intro j hj ha
      rw [hzn j (hlr j hj)]
      exact (hI.leaf j hj ⟨((hV.leaves j).1 hj).1, hlr j hj⟩ ha).1
    · intro j hj ha
      rw [hzn j (hlr j hj), hI.off j ⟨((hV.leaves j).1 hj).1, hlr j hj⟩ ha]
      rfl
    · intro i hi hl
      rw [hcm i hi]
      by_cases hir : IsRoot T i
      · rw [if_pos hir, root_unique hV hir hroot, hzr]
        exact hcsh
      · rw [if_neg hir, hzn i hir]
        exact (hI.node i ⟨hi, hir⟩ hl).1
  have hwf : WF z := hsh.wf hV ho
  have hzact : ∀ i, IsNode T i → z.active i = act i := fun i hi => by
    have := hsh.active hV ho hi
    exact this
  have hzsh : z.shape = s := by
    rw [hsh.shapeEq hV ho]
    apply ext_getD (by simp [hsl, hd])
    intro k hk
    have hk' : k < T.dim2ind.length := by simpa using hk
    rw [List.getD_eq_getElem _ _ (by simpa using hk'), List.getElem_map, hν]
    dsimp only
    unfold dimOf
    rw [hV.nodup.idxOf_getElem k hk']
  have hcsz : ∀ j, IsNode T j → ¬ IsRoot T j → childSize z j = sz j := by
    intro j hj hjr
    rw [hsh.childSize hV ho hj hjr, hszl j hj]
  -- the values
  set V : Nat → List Nat → List Nat → ℝ := fun i p e => if IsRoot T i then sumBox (cs.map sz) (fun u => axP φ cs p u * c.get (u ++ e))
    else φ i p (e.getD 0 0) with hVdef
  have hVn : ∀ i p e, ¬ IsRoot T i → V i p e = φ i p (e.getD 0 0) := fun i p e h => by rw [hVdef]; exact if_neg h
  have hsum : ∀ i p, IsNode T i → InBox s p → ∀ k : List Nat → ℝ, childSum z V p (T.children i) k =
      sumBox ((T.children i).map sz) (fun u => axP φ (T.children i) p u * k u) := by
    intro i p hi hp k
    have hcn : ∀ j ∈ T.children i, IsNode T j ∧ ¬ IsRoot T j := fun j hj => by
      have he := (mem_children i j hi).1 hj
      exact ⟨he.2.1, fun h => h.2 i he⟩
    rw [childSum_box]
    · have e1 : (T.children i).map (childSize z) = (T.children i).map sz :=
        List.map_congr_left (fun j hj => hcsz j (hcn j hj).1 (hcn j hj).2)
      rw [e1]
      apply sumBox_congr
      intro u hu
      congr 1
      unfold childProd axP
      congr 1
      have key : ∀ (l u : List Nat), (∀ j ∈ l, IsNode T j ∧ ¬ IsRoot T j) →
          List.zipWith (fun c s => childVal z V c p s) l u = List.zipWith (fun j a => φ j p a) l u := by
        intro l
        induction l with
        | nil => intros; rfl
        | cons j l ih =>
          intro u hl
          cases u with
          | nil => rfl
          | cons a u =>
            rw [List.zipWith_cons_cons, List.zipWith_cons_cons, ih u (fun j' hj' => hl j' (by simp [hj']))]
            congr 1
            obtain ⟨h1, h2⟩ := hl j (by simp)
            unfold childVal
            rw [hzact j h1, hVn j p [a] h2]
            split
            · rfl
            · rename_i hn
              have hjl : j ∈ T.dim2ind := by by_contra h; exact hn (hact j h1 h)
              exact ((hI.raw j hjl (fun hh => hn hh.2)).2 p a).symm
      exact key _ _ hcn
    · intro j hj hn
      have h1 := (hcn j hj).1
      rw [hzact j h1] at hn
      have hjl : j ∈ T.dim2ind := by by_contra h; exact hn (hact j h1 h)
      rw [hcsz j h1 (hcn j hj).2, (hI.raw j hjl (fun hh => hn hh.2)).1]
      exact ((inBox_iff_getD _ _).1 hp).2 _ (by rw [hsl]; exact List.idxOf_lt_length_of_mem hjl)
  have hon : IsValueOn z V := by
    refine ⟨?_, ?_⟩
    · intro j hj ha idx l hidx hl
      rw [hzsh] at hidx
      have hjn := ((hV.leaves j).1 hj).1
      have haj : act j = true := by rw [← hzact j hjn]; exact ha
      rw [hsh.lastDim hjn (hlr j hj) haj] at hl
      rw [hVn j idx [l] (hlr j hj), hzn j (hlr j hj)]
      exact (hI.leaf j hj ⟨hjn, hlr j hj⟩ haj).2 idx l hidx hl
    · intro i hi hl idx e hidx he
      rw [hzsh] at hidx
      show V i idx e = childSum z V idx (T.children i) _
      rw [hsum i idx hi hidx]
      by_cases hir : IsRoot T i
      · have : i = r := root_unique hV hir hroot
        subst this
        rw [hzr, hVdef]
        exact if_pos hir
      · rw [hsh.rankShape_node hi hl hir] at he
        obtain ⟨l, rfl, hll⟩ := inBox_single he
        rw [hVn i idx [l] hir, hzn i hir]
        refine ((hI.node i ⟨hi, hir⟩ hl).2 idx l).trans ?_
        exact sumBox_congr (fun u _ => by ring)
  obtain ⟨a, f1, f2, f3⟩ := full_on z hwf hon hr
  have hrs : rankShape z r = E := hsh.rankShape_root hroot hrl
  rw [hzsh, hrs] at f2 f3
  have hval : ∀ p e, InBox s p → InBox E e → a.get (p ++ e) = sumBox (st.nodes.map sz) (fun t => axP φ st.nodes p t * st.cur.get (t ++ e)) := by
    intro p e hp he
    rw [f3 p e hp he, hVdef]
    dsimp only
    rw [if_pos hroot]
    have hcm2 : cs.map sz = applyPerm rep (st.nodes.map sz) := by
      show _ = entriesAt rep _
      rw [← map_entriesAt sz rep st.nodes r3, r4]
    rw [hcm2, ← sumBox_applyPerm hrp (by simp [hN])]
    apply sumBox_congr
    intro v hv
    have hvl : v.length = N := by rw [hv.length_eq]; simp [hN]
    have e1 := axP_split φ p r2 r3 hvl
    rw [hoff, r4] at e1
    have e2 : axP φ ([] : List Nat) p (entriesOff rep v) = 1 := rfl
    rw [e2, mul_one] at e1
    have e3 := (c3 (v ++ e) (by rw [hI.iso.shape]; exact (inBox_append hv.length_eq).2 ⟨hv, he⟩)).2
    rw [hap v e hvl he.length_eq] at e3
    show axP φ cs p (entriesAt rep v) * c.get (entriesAt rep v ++ e) = _
    rw [e1, e3]
  have hash : a.shape = x.shape := by rw [f2, hxs]
  have hproj : ∀ e, InBox E e → _ := fun e he => hI.iso.proj he (fun p hp => hval p e hp he)
  have hA : sumBox x.shape (fun i => a.get i ^ 2) = nsq st.cur.shape st.cur.get := by
    rw [hxs, dense_sum]
    unfold nsq
    rw [hI.iso.shape, dense_sum]
    apply sumBox_congr
    intro e he
    rw [(hproj e he).1]
    exact sumBox_congr (fun v _ => pow_two _)
  have hB : sumBox x.shape (fun i => (x.get i - a.get i) ^ 2) =
      sumBox x.shape (fun i => x.get i ^ 2) - sumBox x.shape (fun i => a.get i ^ 2) := by
    have : sumBox x.shape (fun i => (x.get i - a.get i) ^ 2) + sumBox x.shape (fun i => a.get i ^ 2) = sumBox x.shape (fun i => x.get i ^ 2) := by
      rw [hxs, dense_sum, dense_sum, dense_sum, ← sumBox_add]
      apply sumBox_congr
      intro e he
      rw [(hproj e he).2]
      ring
    linarith
  refine ⟨z, a, ?_, hwf, rfl, hzact, hzsh, f1, hash, ?_, hB, ?_⟩
  · unfold hsvdDense
    simp only [hr, hlv, bind, Except.bind, ← hranks, ← htol, ← hd, hrr, l1]
    rw [r1]
    dsimp only
    rw [← hdims, c1]
    exact mk_wf hwf
  · intro i hi hir ha
    obtain ⟨k1, k2⟩ := hI.rank i ⟨hi, hir⟩ ha
    refine ⟨by rw [hzn i hir]; exact hI.orth i ⟨hi, hir⟩ ha, ?_⟩
    rw [hsh.lastDim hi hir ha]
    exact ⟨k1, fun q hq => k2 q (by rw [hrk i hi hir, hq])⟩
  · intro h0 hq
    have hxn : nsq x.shape x.get = sumBox x.shape (fun i => x.get i ^ 2) := sumBox_congr (fun i _ => (pow_two _).symm)
    rw [hB, hA, ← hxn]
    have htol0 : 0 ≤ tol := div_nonneg h0 (Real.sqrt_nonneg _)
    have hle : (∑ j ∈ range (T.n + 1), if (IsNode T j ∧ ¬ IsRoot T j) ∧ act j = true then err j else 0) ≤
        ∑ j ∈ range (T.n + 1), if (IsNode T j ∧ ¬ IsRoot T j) ∧ act j = true then tol ^ 2 * nsq x.shape x.get else 0 := by
      refine sum_le_sum (fun j _ => ?_)
      split
      · rename_i hh
        refine (hI.errle j hh.1 hh.2).2 ?_ htol0
        rw [hrk j hh.1.1 hh.1.2, hq _ (hin j hh.1.1)]
      · exact le_rfl
    have hcard := card_active hV hroot har (tol ^ 2 * nsq x.shape x.get)
    have hnorm := hI.norm
    have hfin : (((T.nodes.filter act).length - 1 : Nat) : ℝ) * (tol ^ 2 * nsq x.shape x.get) ≤ t.tolerance ^ 2 * nsq x.shape x.get := by
      have hnn := nsq_nonneg (s := x.shape) x.get
      rw [← mul_assoc]
      refine mul_le_mul_of_nonneg_right ?_ hnn
      rw [htol, div_pow, Real.sq_sqrt (Nat.cast_nonneg _)]
      by_cases hk : (((T.nodes.filter act).length - 1 : Nat) : ℝ) = 0
      · rw [hk, zero_mul]; positivity
      · rw [mul_div_cancel₀ _ hk]
    have e1 : (∑ j ∈ range (T.n + 1), if (IsNode T j ∧ ¬ IsRoot T j) ∧ act j = true then err j else 0) ≤ t.tolerance ^ 2 * nsq x.shape x.get :=
      hle.trans (le_trans (le_of_eq (by convert hcard)) hfin)
    have e2 : nsq x.shape x.get - nsq st.cur.shape st.cur.get =
        ∑ j ∈ range (T.n + 1), if (IsNode T j ∧ ¬ IsRoot T j) ∧ act j = true then err j else 0 := by
      rw [sub_eq_iff_eq_add']
      convert hnorm
    rw [e2]
    exact e1

/-- C75. `ttsvd` of a tensor of order at least two: the result has the linear tree where all the leaves but that of the first
dimension are inactive (tensor-train format), the node tensors other than the root are orthonormal, the ranks respect the
maximal ranks, the error is orthogonal to the result, and without maximal rank the relative error is at most the tolerance. -/
theorem ttsvd_spec (svd : Svd) (hsv : SvdOk svd) (t : Truncator) (ht : t.param = none ∨ t.param = some 0)
    (mr : List (Option Nat)) (x : Arr ℝ) (ho : 2 ≤ x.order) (hpos : ∀ n ∈ x.shape, 0 < n)
    (hmr : mr.length = 1 ∨ mr.length = 2 * x.order - 1) (hmr0 : ∀ q ∈ mr, q ≠ some 0) :
    ∃ (z : TBT ℝ) (a : Arr ℝ), ttsvd svd t mr x = .ok z ∧ WF z ∧ z.tree = DTree.linear (List.range x.order) ∧
      (∀ i, IsNode z.tree i → (z.active i = false ↔ ∃ k, 1 ≤ k ∧ k < x.order ∧ z.tree.dim2ind[k]? = some i)) ∧
      full z = .ok a ∧ a.shape = x.shape ∧
      (∀ i, IsNode z.tree i → ¬ IsRoot z.tree i → z.active i = true → OrthoLast (z.tensors i) ∧ 1 ≤ z.lastDim i ∧
        ∀ q, mr.getD (if mr.length = 1 then 0 else i - 1) none = some q → z.lastDim i ≤ q) ∧
      sumBox x.shape (fun i => (x.get i - a.get i) ^ 2) = sumBox x.shape (fun i => x.get i ^ 2) - sumBox x.shape (fun i => a.get i ^ 2) ∧
      (0 ≤ t.tolerance → (∀ q ∈ mr, q = none) →
        sumBox x.shape (fun i => (x.get i - a.get i) ^ 2) ≤ t.tolerance ^ 2 * sumBox x.shape (fun i => x.get i ^ 2)) := by
  set T := DTree.linear (List.range x.order) with hT
  have hlen : T.dim2ind.length = x.order := linear_length x.order (by omega)
  have hV : Valid T := linear_valid_id x.order ho
  have hn : T.n = 2 * x.order - 1 := by rw [hT]; simp [DTree.linear]
  obtain ⟨z, a, h1, h2, h3, h4, h5, h6, h7, h8, h9, h10⟩ := hsvdDense_spec svd hsv t ht mr T hV (by omega)
    (fun i => !(T.dim2ind.tail.contains i)) (by
      intro i hi hl
      simp only [Bool.not_eq_true', List.contains_eq_mem, decide_eq_false_iff_not]
      exact fun h => hl (List.mem_of_mem_tail h)) (by rw [hn]; exact hmr) hmr0 x (.inl hlen.symm) hpos
  refine ⟨z, a, h1, h2, h3, ?_, h6, h7, ?_, h9, h10⟩
  · intro i hi
    rw [h3] at hi ⊢
    rw [h4 i hi]
    simp only [Bool.not_eq_false', List.contains_eq_mem, decide_eq_true_eq]
    rw [List.mem_iff_getElem?]
    constructor
    · rintro ⟨k, hk⟩
      rw [List.getElem?_tail] at hk
      refine ⟨k + 1, by omega, ?_, hk⟩
      obtain ⟨hk', -⟩ := List.getElem?_eq_some_iff.1 hk
      omega
    · rintro ⟨k, hk1, hk2, hk⟩
      refine ⟨k - 1, ?_⟩
      rw [List.getElem?_tail, Nat.sub_add_cancel hk1]
      exact hk
  · intro i hi hir ha
    rw [h3] at hi hir
    exact h8 i hi hir (by rw [← h4 i hi]; exact ha)

/-- The hypotheses of `hsvdDense_spec` and `ttsvd_spec` are met: a tensor of shape `(2, 3, 2)`, the balanced tree of three
dimensions with the leaf of the first dimension inactive. -/
example : ∃ (svd : Svd) (x : Arr ℝ), SvdOk svd ∧ x.shape = [2, 3, 2] ∧ Valid (DTree.balanced [0, 1, 2]) ∧
    (∀ i, IsNode (DTree.balanced [0, 1, 2]) i → i ∉ (DTree.balanced [0, 1, 2]).dim2ind → (fun i => i != 3) i = true) ∧
    x.order = (DTree.balanced [0, 1, 2]).dim2ind.length ∧ 2 ≤ x.order := by
  obtain ⟨svd, h⟩ := exists_svd
  refine ⟨svd, ⟨[2, 3, 2], fun i => (i.getD 0 0 : ℝ) + 2 * i.getD 1 0 * i.getD 2 0⟩, h, rfl, balanced_valid _ (by decide) (by decide), ?_, by decide, by decide⟩
  intro i hi hl
  have h3 : (3 : Nat) ∈ (DTree.balanced [0, 1, 2]).dim2ind := by decide
  simp only [bne_iff_ne]
  rintro rfl
  exact hl h3

end Verif.Truncation
