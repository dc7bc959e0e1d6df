import Verif.Model.AdaptationPath
import Verif.Spec.AdaptationPath
import Verif.Lemmas.Merge
import Verif.Props.TreeMisc
import Verif.Model.AlternatingMinimization

/-!
# The basis adaptation paths
-/

namespace Verif.TreeBased

open Verif.Arr Verif.DimTree DTree

variable {R : Type}

def rowsB (A : Arr Bool) : Nat := A.shape.getD 0 0
def colsB (A : Arr Bool) : Nat := A.shape.getD 1 0

theorem kronLoop_cons (A : Arr Bool) {L : List (Arr Bool)} (h : L ≠ []) {q : Arr Bool} (hq : kronLoop L = .ok q) :
    kronLoop (A :: L) = .ok (kronB q A) := by
  unfold kronLoop at hq ⊢
  rw [List.reverse_cons]
  rcases hr : L.reverse with _ | ⟨p, l⟩
  · exact absurd (List.reverse_eq_nil_iff.1 hr) h
  · rw [hr] at hq
    cases hq
    simp [List.foldl_append]

theorem inBox_cons {n i : Nat} {s v : List Nat} : InBox (n :: s) (i :: v) ↔ i < n ∧ InBox s v := List.forall₂_cons

/-- The loop of Kronecker products: the subscripts of the first matrix vary first. -/
theorem kronLoop_spec (L : List (Arr Bool)) (hne : L ≠ []) (hL : ∀ A ∈ L, A.shape.length = 2) :
    ∃ p, kronLoop L = .ok p ∧ p.shape = [(L.map rowsB).prod, (L.map colsB).prod] ∧
      ∀ idx jdx, InBox (L.map rowsB) idx → InBox (L.map colsB) jdx →
        (p.get [ravelF (L.map rowsB) idx, ravelF (L.map colsB) jdx] = true ↔
          ∀ t, (ht : t < L.length) → L[t].get [idx.getD t 0, jdx.getD t 0] = true) := by
  induction L with
  | nil => exact absurd rfl hne
  | cons A L ih =>
    have hA := hL A (by simp)
    match hs : A.shape, hA with
    | [a, b], _ =>
      have ra : rowsB A = a := by unfold rowsB; rw [hs]; rfl
      have rb : colsB A = b := by unfold colsB; rw [hs]; rfl
      by_cases hl : L = []
      · subst hl
        refine ⟨A, rfl, by rw [hs]; simp [ra, rb], fun idx jdx hi hj => ?_⟩
        simp only [List.map_cons, List.map_nil, ra, rb] at hi hj ⊢
        obtain ⟨i, _, h1, h2, rfl⟩ := List.forall₂_cons_right_iff.1 hi
        obtain ⟨j, _, h3, h4, rfl⟩ := List.forall₂_cons_right_iff.1 hj
        cases List.forall₂_nil_right_iff.1 h2
        cases List.forall₂_nil_right_iff.1 h4
        simp [ravelF]
      · obtain ⟨q, q1, q2, q3⟩ := ih hl (fun B hB => hL B (by simp [hB]))
        refine ⟨kronB q A, kronLoop_cons A hl q1, ?_, fun idx jdx hi hj => ?_⟩
        · show [q.shape.getD 0 0 * A.shape.getD 0 0, q.shape.getD 1 0 * A.shape.getD 1 0] = _
          rw [q2, hs]
          simp [ra, rb, mul_comm]
        · simp only [List.map_cons, ra, rb] at hi hj ⊢
          obtain ⟨i, is, h1, h2, rfl⟩ := List.forall₂_cons_right_iff.1 hi
          obtain ⟨j, js, h3, h4, rfl⟩ := List.forall₂_cons_right_iff.1 hj
          have e := q3 is js h2 h4
          show (q.get [(i + a * _) / A.shape.getD 0 0, (j + b * _) / A.shape.getD 1 0] &&
            A.get [(i + a * _) % A.shape.getD 0 0, (j + b * _) % A.shape.getD 1 0]) = true ↔ _
          rw [hs]
          simp only [List.getD_cons_zero, List.getD_cons_succ]
          rw [Nat.add_mul_div_left _ _ (by omega), Nat.div_eq_of_lt h1, zero_add, Nat.add_mul_div_left _ _ (by omega), Nat.div_eq_of_lt h3,
            zero_add, Nat.add_mul_mod_self_left, Nat.mod_eq_of_lt h1, Nat.add_mul_mod_self_left, Nat.mod_eq_of_lt h3, Bool.and_eq_true, e]
          constructor
          · rintro ⟨u, v⟩ t ht
            rcases t with _ | t
            · exact v
            · exact u t (by simpa using ht)
          · intro u
            exact ⟨fun t ht => u (t + 1) (by simpa using ht), u 0 (by simp)⟩

/-! ### The paths of the nodes -/

variable {x : TBT R} {P : List (Arr Bool)}

theorem leafPath_ok (hP : AreSets x P) {c : Nat} (hc : c ∈ x.tree.dim2ind) : leafPath x.tree P c = .ok (setsOf x P c) := by
  unfold leafPath setsOf dimOf
  have hl : x.tree.dim2ind.idxOf c < P.length := by rw [hP.len]; exact List.idxOf_lt_length_of_mem hc
  rw [if_pos hc, List.getElem?_eq_getElem hl, List.getD_eq_getElem _ _ hl]

/-- The matrix of booleans of the axis of a child. -/
def axisMat (x : TBT R) (P : List (Arr Bool)) (c : Nat) : Arr Bool := if x.active c then ⟨[x.rank c, 1], fun _ => true⟩ else setsOf x P c

theorem axisMat_spec (hx : WF x) (hP : AreSets x P) {c : Nat} (hc : IsNode x.tree c) (hr : ¬ IsRoot x.tree c) {ranks : Nat → Nat}
    (hrk : ranks c = x.rank c) :
    childPath x P ranks c = .ok (axisMat x P c) ∧ (axisMat x P c).shape.length = 2 ∧ rowsB (axisMat x P c) = childSize x c ∧
      colsB (axisMat x P c) = setCount x P c ∧ ∀ i j, (axisMat x P c).get [i, j] = true ↔ AxisKeeps x P c i j := by
  unfold childPath axisMat childSize setCount AxisKeeps
  by_cases ha : x.active c = true
  · simp only [ha, if_true]
    exact ⟨by rw [hrk], rfl, rank_active hc hr ha, rfl, by simp⟩
  · have hl : c ∈ x.tree.dim2ind := by
      by_contra hn
      exact ha (hx.node c hc hn).1
    obtain ⟨m, _, hm⟩ := hP.shape c hl
    simp only [if_neg ha]
    exact ⟨leafPath_ok hP hl, by rw [hm]; rfl, by unfold rowsB; rw [hm]; rfl, rfl, by simp [ha]⟩


theorem nodeAxes_leaf (hx : WF x) {a : Nat} (ha : a ∈ x.tree.dim2ind) (hact : x.active a = true) : nodeAxes x a = [x.leafSize a] := by
  obtain ⟨n, r, h⟩ := hx.leaf a ha hact
  unfold nodeAxes TBT.leafSize
  rw [if_pos ha, if_pos hact, h]; rfl

theorem nodeAxes_internal (hx : WF x) {a : Nat} (hn : IsNode x.tree a) (ha : a ∉ x.tree.dim2ind) :
    nodeAxes x a = (x.tree.children a).map (childSize x) := by
  obtain ⟨_, h, _⟩ := hx.node a hn ha
  unfold nodeAxes
  rw [if_neg ha, h]
  exact List.take_left' (by simp)

theorem ravel_row {s idx : List Nat} {r k : Nat} (hi : InBox s idx) :
    ravelF (s ++ [r]) (idx ++ [k]) = ravelF s idx + s.prod * k := by
  rw [ravelF_append hi.length_eq]
  simp [ravelF]

theorem row_mod {s idx : List Nat} {r k : Nat} (hi : InBox s idx) : ravelF (s ++ [r]) (idx ++ [k]) % s.prod = ravelF s idx := by
  rw [ravel_row hi, Nat.add_mul_mod_self_left, Nat.mod_eq_of_lt (ravelF_lt hi)]

theorem childOf {a c : Nat} (hc : c ∈ x.tree.children a) (hn : IsNode x.tree a) : IsNode x.tree c ∧ ¬ IsRoot x.tree c := by
  have he : Edge x.tree a c := (mem_children _ _ hn).1 hc
  exact ⟨he.2.1, fun h => h.2 a he⟩

open Classical in
/-- C205. The rows of the basis adaptation path of a node are the entries of its tensor, in the order of the columns of the design matrix; its
columns are the choices of a set for each axis. -/
theorem adaptPath_spec (hx : WF x) (hP : AreSets x P) {a : Nat} (hn : IsNode x.tree a) (hact : x.active a = true) (r : Nat)
    (hr : r = if IsRoot x.tree a then 1 else x.rank a) :
    ∃ p, adaptPath x P a = .ok p ∧
      (a ∉ x.tree.dim2ind → (∀ c ∈ x.tree.children a, x.active c = true) →
        p.shape = [(nodeAxes x a ++ [r]).prod] ∧
        ∀ idx k, InBox (nodeAxes x a) idx → k < r → p.get [ravelF (nodeAxes x a ++ [r]) (idx ++ [k])] = true) ∧
      ((a ∈ x.tree.dim2ind ∨ ∃ c ∈ x.tree.children a, x.active c ≠ true) →
        p.shape = [(nodeAxes x a ++ [r]).prod, (nodeCounts x P a).prod] ∧
        ∀ idx k jdx, InBox (nodeAxes x a) idx → k < r → InBox (nodeCounts x P a) jdx →
          (p.get [ravelF (nodeAxes x a ++ [r]) (idx ++ [k]), ravelF (nodeCounts x P a) jdx] = true ↔ NodeKeeps x P a idx jdx)) := by
  obtain ⟨ro, hro, hroot⟩ := root_ok hx.valid
  have hrk : upd x.rank ro 1 a = r := by
    rw [hr]
    unfold upd
    by_cases h : IsRoot x.tree a
    · rw [if_pos h, if_pos (root_unique hx.valid h hroot)]
    · rw [if_neg h, if_neg (fun e : a = ro => h (e ▸ hroot))]
  by_cases hl : a ∈ x.tree.dim2ind
  · have hlf : x.tree.isLeaf a = true := (isLeaf_mem _ _).2 hl
    obtain ⟨m, hm0, hm⟩ := hP.shape a hl
    simp only [adaptPath, hro, bind, Except.bind, hlf, if_true, leafPath_ok hP hl, hrk]
    refine ⟨_, rfl, fun h => absurd hl h, fun _ => ?_⟩
    rw [nodeAxes_leaf hx hl hact]
    unfold nodeCounts NodeKeeps
    simp only [if_pos hl, hm]
    refine ⟨by simp [reshapeF], fun idx k jdx hi hk hj => ?_⟩
    obtain ⟨i, _, h1, h2, rfl⟩ := List.forall₂_cons_right_iff.1 hi
    obtain ⟨j, _, h3, h4, rfl⟩ := List.forall₂_cons_right_iff.1 hj
    cases List.forall₂_nil_right_iff.1 h2
    cases List.forall₂_nil_right_iff.1 h4
    simp only [reshapeF, tileLeaf, hm, List.getD_cons_zero, List.getD_cons_succ]
    have e : ravelF [x.leafSize a * r, 2 * m] [ravelF ([x.leafSize a] ++ [r]) ([i] ++ [k]), ravelF [2 * m] [j]] =
        ravelF [1, x.leafSize a, r, 2 * m] [0, i, k, j] := by
      simp only [ravelF, List.cons_append, List.nil_append]; ring
    simp only [List.getD_cons_zero, List.getD_cons_succ] at h3
    rw [e, unravelF_ravelF]
    · simp
    · exact inBox_cons.2 ⟨by omega, inBox_cons.2 ⟨h1, inBox_cons.2 ⟨hk, inBox_cons.2 ⟨h3, List.Forall₂.nil⟩⟩⟩⟩
  · have hlf : x.tree.isLeaf a = false := by
      by_contra hh; exact hl ((isLeaf_mem _ _).1 (by simpa using hh))
    have hch : ∀ c ∈ x.tree.children a, IsNode x.tree c ∧ ¬ IsRoot x.tree c := fun c hc => childOf hc hn
    have hrc : ∀ c ∈ x.tree.children a, upd x.rank ro 1 c = x.rank c := fun c hc => by
      unfold upd
      exact if_neg (fun e : c = ro => (hch c hc).2 (e ▸ hroot))
    rw [nodeAxes_internal hx hn hl]
    simp only [adaptPath, hro, bind, Except.bind, hlf, if_false, Bool.false_eq_true]
    by_cases hall : ∀ c ∈ x.tree.children a, x.active c = true
    · rw [if_pos (List.all_eq_true.2 hall)]
      refine ⟨_, rfl, fun _ _ => ⟨?_, fun _ _ _ _ => rfl⟩, fun h => ?_⟩
      · rw [hrk, List.map_congr_left hrc, List.prod_append, List.prod_singleton]
        show [_] = [_]
        congr 3
        refine List.map_congr_left (fun c hc => ?_)
        unfold childSize
        rw [if_pos (hall c hc)]
        exact rank_active (hch c hc).1 (hch c hc).2 (hall c hc)
      · rcases h with h | ⟨c, hc, h⟩
        · exact absurd h hl
        · exact absurd (hall c hc) h
    · have hall' : ¬ (x.tree.children a).all x.active = true := fun h => hall (List.all_eq_true.1 h)
      rw [if_neg hall']
      have hmat := fun c (hc : c ∈ x.tree.children a) => axisMat_spec hx hP (hch c hc).1 (hch c hc).2 (hrc c hc)
      have hM : (x.tree.children a).mapM (childPath x P (upd x.rank ro 1)) = .ok ((x.tree.children a).map (axisMat x P)) := by
        rw [mapM_ok_iff, List.forall₂_map_right_iff, List.forall₂_same]
        exact fun c hc => (hmat c hc).1
      have hne : x.tree.children a ≠ [] := by
        intro h
        apply hall
        rw [h]; simp
      obtain ⟨p, p1, p2, p3⟩ := kronLoop_spec ((x.tree.children a).map (axisMat x P)) (by simpa using hne) (fun A hA => by
        obtain ⟨c, hc, rfl⟩ := List.mem_map.1 hA
        exact (hmat c hc).2.1)
      have er : ((x.tree.children a).map (axisMat x P)).map rowsB = (x.tree.children a).map (childSize x) := by
        rw [List.map_map]
        exact List.map_congr_left (fun c hc => (hmat c hc).2.2.1)
      have ec : ((x.tree.children a).map (axisMat x P)).map colsB = (x.tree.children a).map (setCount x P) := by
        rw [List.map_map]
        exact List.map_congr_left (fun c hc => (hmat c hc).2.2.2.1)
      rw [er, ec] at p2 p3
      simp only [hM, p1, hrk]
      refine ⟨_, rfl, fun _ h => absurd h hall, fun _ => ?_⟩
      unfold nodeCounts NodeKeeps
      simp only [if_neg hl]
      refine ⟨?_, fun idx k jdx hi hk hj => ?_⟩
      · show [r * p.shape.getD 0 0, p.shape.getD 1 0] = _
        rw [p2]
        simp [mul_comm]
      · show p.get [_ % p.shape.getD 0 0, _] = true ↔ _
        simp only [p2, List.getD_cons_zero, List.getD_cons_succ]
        rw [row_mod hi, p3 idx jdx hi hj]
        constructor
        · intro h t ht
          have := h t (by simpa using ht)
          rw [List.getElem_map] at this
          rw [List.getD_eq_getElem _ _ ht]
          exact ((hmat _ (List.getElem_mem ht)).2.2.2.2 _ _).1 this
        · intro h t ht
          have ht' : t < (x.tree.children a).length := by simpa using ht
          have := h t ht'
          rw [List.getElem_map]
          rw [List.getD_eq_getElem _ _ ht'] at this
          exact ((hmat _ (List.getElem_mem ht')).2.2.2.2 _ _).2 this


/-! ### The paths of the merged nodes -/

theorem ravel_zero {s v : List Nat} (h : s.prod = 1) (hi : InBox s v) : ravelF s v = 0 := by
  have := ravelF_lt hi
  omega

theorem rank_pos (hx : WF x) {a : Nat} (hn : IsNode x.tree a) (hact : x.active a = true) (hnr : ¬ IsRoot x.tree a) : 0 < x.rank a := by
  obtain ⟨ro, _, hroot⟩ := root_ok hx.valid
  rw [rank_active hn hnr hact]
  exact (hx.shaped hroot).rho a hn hnr hact

/-- The first rows of the path of a node. -/
theorem headPath_spec (hx : WF x) (hP : AreSets x P) {a : Nat} (hn : IsNode x.tree a) (hact : x.active a = true) (hnr : ¬ IsRoot x.tree a) :
    ∃ p, adaptPath x P a = .ok p ∧ (headPath p (x.rank a)).shape = [(nodeAxes x a).prod, (nodeCounts x P a).prod] ∧
      ∀ idx jdx, InBox (nodeAxes x a) idx → InBox (nodeCounts x P a) jdx →
        ((headPath p (x.rank a)).get [ravelF (nodeAxes x a) idx, ravelF (nodeCounts x P a) jdx] = true ↔ NodeKeeps x P a idx jdx) := by
  have hr := rank_pos hx hn hact hnr
  obtain ⟨p, p1, p2, p3⟩ := adaptPath_spec hx hP hn hact (x.rank a) (by rw [if_neg hnr])
  refine ⟨p, p1, ?_⟩
  have hrow : ∀ idx, InBox (nodeAxes x a) idx → ravelF (nodeAxes x a ++ [x.rank a]) (idx ++ [0]) = ravelF (nodeAxes x a) idx := fun idx hi => by
    rw [ravel_row hi, mul_zero, add_zero]
  have hdiv : (nodeAxes x a ++ [x.rank a]).prod / x.rank a = (nodeAxes x a).prod := by
    rw [List.prod_append, List.prod_singleton, Nat.mul_div_cancel _ hr]
  by_cases hc : a ∈ x.tree.dim2ind ∨ ∃ c ∈ x.tree.children a, x.active c ≠ true
  · obtain ⟨q1, q2⟩ := p3 hc
    have hord : p.order ≠ 1 := by unfold Arr.order; rw [q1]; simp
    unfold headPath
    rw [if_neg hord]
    dsimp only
    refine ⟨by rw [q1]; simp only [List.getD_cons_zero, List.getD_cons_succ, hdiv], fun idx jdx hi hj => ?_⟩
    show p.get _ = true ↔ _
    rw [← hrow idx hi]
    exact q2 idx 0 jdx hi hr hj
  · have hl : a ∉ x.tree.dim2ind := fun h => hc (.inl h)
    have hall : ∀ c ∈ x.tree.children a, x.active c = true := fun c h => by
      by_contra hh; exact hc (.inr ⟨c, h, hh⟩)
    obtain ⟨q1, q2⟩ := p2 hl hall
    have hord : p.order = 1 := by unfold Arr.order; rw [q1]; rfl
    have hcnt : (nodeCounts x P a).prod = 1 := by
      unfold nodeCounts
      rw [if_neg hl]
      have : (x.tree.children a).map (setCount x P) = List.replicate (x.tree.children a).length 1 := by
        rw [List.eq_replicate_iff]
        refine ⟨by simp, fun b hb => ?_⟩
        obtain ⟨c, hc', rfl⟩ := List.mem_map.1 hb
        unfold setCount
        rw [if_pos (hall c hc')]
      rw [this]; simp
    have hk : ∀ idx jdx, NodeKeeps x P a idx jdx := fun idx jdx => by
      unfold NodeKeeps
      rw [if_neg hl]
      intro t ht
      rw [List.getD_eq_getElem _ _ ht]
      exact .inl (hall _ (List.getElem_mem ht))
    unfold headPath
    rw [if_pos hord]
    dsimp only
    refine ⟨?_, fun idx jdx hi hj => ?_⟩
    · simp only [reshapeF, List.getD_cons_zero, List.getD_cons_succ, hcnt, q1, List.prod_singleton, hdiv]
    · refine iff_of_true ?_ (hk _ _)
      have hlt : ravelF (nodeAxes x a ++ [x.rank a]) (idx ++ [0]) < (nodeAxes x a ++ [x.rank a]).prod :=
        ravelF_lt ((inBox_append hi.length_eq).2 ⟨hi, inBox_one hr⟩)
      have := q2 idx 0 hi hr
      rw [hrow idx hi] at this hlt
      rw [ravel_zero hcnt hj]
      show p.get (unravelF p.shape (ravelF [p.shape.prod, 1] [ravelF (nodeAxes x a) idx, 0])) = true
      rw [q1]
      simp only [ravelF, unravelF, List.prod_singleton, mul_zero, add_zero, Nat.mod_eq_of_lt hlt]
      exact this

theorem placePaths_ok (P : List (Arr Bool)) (ranks : Nat → Nat) (pos : Nat → Nat) (g : Nat → Arr Bool) (l : List Nat) (k : Nat)
    (L : List (Arr Bool)) (hL : L.length = k + l.length) (hg : ∀ c ∈ l, childPath x P ranks c = .ok (g c))
    (hpos : ∀ t, (ht : t < l.length) → pos l[t] = t + k) : placePaths x P ranks pos l L = .ok (L.take k ++ l.map g) := by
  induction l generalizing k L with
  | nil => simp at hL; simp [placePaths, ← hL, pure, Except.pure]
  | cons c l ih =>
    have h0 := hpos 0 (by simp)
    simp only [List.getElem_cons_zero, zero_add] at h0
    have := ih (k + 1) (L.set k (g c)) (by rw [List.length_set, hL]; simp; omega) (fun c' h => hg c' (by simp [h])) (fun t ht => by
      have := hpos (t + 1) (by simpa using ht)
      rw [List.getElem_cons_succ] at this
      omega)
    unfold placePaths at this ⊢
    rw [List.foldlM_cons, hg c (by simp)]
    simp only [bind, Except.bind, h0] at this ⊢
    rw [this]
    have hk : k < L.length := by rw [hL]; simp
    rw [List.take_add_one, List.take_set_of_le (le_refl k), List.getElem?_set_self hk]
    simp

/-- The positions of the siblings of a node. -/
theorem siblings_pos {l : List Nat} (hl : l.Nodup) {a : Nat} (ha : a ∈ l) {t : Nat} (ht : t < (l.filter (· ≠ a)).length) :
    (l.filter (· ≠ a)).length + 1 = l.length ∧
    l.idxOf (l.filter (· ≠ a))[t] = (if l.idxOf (l.filter (· ≠ a))[t] < l.idxOf a then t else t + 1) := by
  obtain ⟨l1, l2, rfl⟩ := List.append_of_mem ha
  rw [List.nodup_append] at hl
  obtain ⟨n1, n2, n3⟩ := hl
  obtain ⟨m1, m2⟩ := List.nodup_cons.1 n2
  have h1 : a ∉ l1 := fun h => n3 a h a (by simp) rfl
  have hf : (l1 ++ a :: l2).filter (· ≠ a) = l1 ++ l2 := by
    rw [List.filter_append, List.filter_cons_of_neg (by simp), List.filter_eq_self.2, List.filter_eq_self.2]
    · intro b hb; simp only [ne_eq, decide_not, Bool.not_eq_eq_eq_not, Bool.not_true, decide_eq_false_iff_not]; rintro rfl; exact m1 hb
    · intro b hb; simp only [ne_eq, decide_not, Bool.not_eq_eq_eq_not, Bool.not_true, decide_eq_false_iff_not]; rintro rfl; exact h1 hb
  have hia : (l1 ++ a :: l2).idxOf a = l1.length := by
    rw [List.idxOf_append_of_notMem h1, List.idxOf_cons_self, add_zero]
  have hlen : t < l1.length + l2.length := by rw [hf] at ht; simpa using ht
  refine ⟨by rw [hf]; simp; omega, ?_⟩
  rw [hia]
  by_cases h : t < l1.length
  · have e : (l1 ++ a :: l2).idxOf ((l1 ++ a :: l2).filter (· ≠ a))[t] = t := by
      simp only [hf, List.getElem_append_left h]
      rw [List.idxOf_append_of_mem (List.getElem_mem h), List.Nodup.idxOf_getElem n1]
    rw [e, if_pos h]
  · have h' : t - l1.length < l2.length := by omega
    have e : (l1 ++ a :: l2).idxOf ((l1 ++ a :: l2).filter (· ≠ a))[t] = t + 1 := by
      simp only [hf, List.getElem_append_right (not_lt.1 h)]
      have hne : a ≠ l2[t - l1.length] := fun h => m1 (h ▸ List.getElem_mem h')
      rw [List.idxOf_append_of_notMem (fun hm => n3 _ hm _ (List.mem_cons_of_mem _ (List.getElem_mem h')) rfl), List.idxOf_cons_ne _ hne,
        List.Nodup.idxOf_getElem m2]
      omega
    rw [e, if_neg (by omega)]


theorem childNumber_eq (hx : WF x) {g c : Nat} (he : Edge x.tree g c) : x.tree.childNumber c = (x.tree.children g).idxOf c + 1 := by
  have hp := edge_parent hx.valid he
  have hg : g ≠ 0 := by have := he.1.1; omega
  unfold childNumber
  rw [hp, if_neg hg, if_pos ((mem_children _ _ he.1).2 he)]

theorem prod_split (s u : List Nat) : (s.prod :: u).prod = (s ++ u).prod := by simp

theorem ravel_split {s v : List Nat} (u w : List Nat) (h : InBox s v) : ravelF (s.prod :: u) (ravelF s v :: w) = ravelF (s ++ u) (v ++ w) := by
  rw [ravelF_append h.length_eq]; rfl

open Classical in
/-- C206. The path of the node obtained by merging a node with its parent. -/
theorem adaptPathDmrg_spec (hx : WF x) (hP : AreSets x P) {g a : Nat} (he : Edge x.tree g a) (hact : x.active a = true) (r : Nat)
    (hr : r = if IsRoot x.tree g then 1 else x.rank g) (sib : List Nat) (hsib : sib = (x.tree.children g).filter (· ≠ a)) :
    ∃ p, adaptPathDmrg x P a = .ok p ∧
      p.shape = [(nodeAxes x a ++ sib.map (childSize x) ++ [r]).prod, (nodeCounts x P a ++ sib.map (setCount x P)).prod] ∧
      ∀ i u k j v, InBox (nodeAxes x a) i → InBox (sib.map (childSize x)) u → k < r → InBox (nodeCounts x P a) j →
        InBox (sib.map (setCount x P)) v →
        (p.get [ravelF (nodeAxes x a ++ sib.map (childSize x) ++ [r]) (i ++ u ++ [k]),
            ravelF (nodeCounts x P a ++ sib.map (setCount x P)) (j ++ v)] = true ↔
          NodeKeeps x P a i j ∧ ∀ t, t < sib.length → AxisKeeps x P (sib.getD t 0) (u.getD t 0) (v.getD t 0)) := by
  obtain ⟨ro, hro, hroot⟩ := root_ok hx.valid
  have hnr : ¬ IsRoot x.tree a := fun h => h.2 g he
  have hgp := edge_parent hx.valid he
  have hrk : upd x.rank ro 1 g = r := by
    rw [hr]
    unfold upd
    by_cases h : IsRoot x.tree g
    · rw [if_pos h, if_pos (root_unique hx.valid h hroot)]
    · rw [if_neg h, if_neg (fun e : g = ro => h (e ▸ hroot))]
  have hra : upd x.rank ro 1 a = x.rank a := by
    unfold upd
    exact if_neg (fun e : a = ro => hnr (e ▸ hroot))
  obtain ⟨q, q1, q2, q3⟩ := headPath_spec hx hP he.2.1 hact hnr
  have hmem : ∀ c ∈ sib, Edge x.tree g c := fun c hc => by
    rw [hsib] at hc
    exact (mem_children _ _ he.1).1 (List.mem_filter.1 hc).1
  have hmat := fun c (hc : c ∈ sib) => axisMat_spec hx hP (hmem c hc).2.1 (fun h => h.2 g (hmem c hc)) (ranks := upd x.rank ro 1)
    (by unfold upd; exact if_neg (fun e : c = ro => (e ▸ hroot).2 g (hmem c hc)))
  have hnd := nodup_children (T := x.tree) g
  have hin : a ∈ x.tree.children g := (mem_children _ _ he.1).2 he
  have hlen : (sib.length) + 1 = (x.tree.children g).length := by
    by_cases h0 : 0 < sib.length
    · rw [hsib] at h0 ⊢
      exact (siblings_pos hnd hin h0).1
    · have : sib = [] := by simpa using h0
      rw [this, List.length_nil]
      rw [hsib, List.filter_eq_nil_iff] at this
      have hal : x.tree.children g = List.replicate (x.tree.children g).length a := by
        rw [List.eq_replicate_iff]
        refine ⟨rfl, fun b hb => by simpa using this b hb⟩
      have hle : (x.tree.children g).length ≤ 1 := by
        rw [hal] at hnd
        simpa [List.nodup_replicate] using hnd
      have := List.length_pos_of_mem hin
      omega
  have hplace := placePaths_ok (x := x) P (upd x.rank ro 1)
    (fun nod => x.tree.childNumber nod - 1 + if x.tree.childNumber nod < x.tree.childNumber a then 1 else 0) (axisMat x P) sib 1
    (List.replicate (x.tree.children g).length ⟨[], fun _ => true⟩) (by simp; omega) (fun c hc => (hmat c hc).1) (fun t ht => by
      have hp := (siblings_pos hnd hin (t := t) (by rw [← hsib]; exact ht)).2
      simp only [← hsib] at hp
      rw [childNumber_eq hx (hmem _ (List.getElem_mem ht)), childNumber_eq hx he]
      split_ifs at hp ⊢ <;> omega)
  obtain ⟨p, p1, p2, p3⟩ := kronLoop_spec (headPath q (x.rank a) :: sib.map (axisMat x P)) (by simp) (fun A hA => by
    rcases List.mem_cons.1 hA with rfl | h
    · rw [q2]; rfl
    · obtain ⟨c, hc, rfl⟩ := List.mem_map.1 h
      exact (hmat c hc).2.1)
  have er : (headPath q (x.rank a) :: sib.map (axisMat x P)).map rowsB = (nodeAxes x a).prod :: sib.map (childSize x) := by
    rw [List.map_cons, List.map_map]
    congr 1
    · unfold rowsB; rw [q2]; rfl
    · exact List.map_congr_left (fun c hc => (hmat c hc).2.2.1)
  have ec : (headPath q (x.rank a) :: sib.map (axisMat x P)).map colsB = (nodeCounts x P a).prod :: sib.map (setCount x P) := by
    rw [List.map_cons, List.map_map]
    congr 1
    · unfold colsB; rw [q2]; rfl
    · exact List.map_congr_left (fun c hc => (hmat c hc).2.2.2.1)
  rw [er, ec] at p2 p3
  have hset : (((List.replicate (x.tree.children g).length (⟨[], fun _ => true⟩ : Arr Bool)).take 1 ++ sib.map (axisMat x P)).set 0
      (headPath q (x.rank a))) = headPath q (x.rank a) :: sib.map (axisMat x P) := by
    rw [← hlen]; simp [List.replicate_succ]
  simp only [adaptPathDmrg, hro, bind, Except.bind, q1, hgp, hra, ← hsib, hplace, hset, p1, hrk]
  refine ⟨_, rfl, ?_, fun i u k j v hi hu hk hj hv => ?_⟩
  · show [r * p.shape.getD 0 0, p.shape.getD 1 0] = _
    rw [p2]
    simp [mul_comm, mul_assoc]
  · show p.get [_ % p.shape.getD 0 0, _] = true ↔ _
    simp only [p2, List.getD_cons_zero, List.getD_cons_succ, prod_split]
    rw [row_mod ((inBox_append hi.length_eq).2 ⟨hi, hu⟩), ← ravel_split _ _ hi, ← ravel_split _ _ hj,
      p3 (_ :: u) (_ :: v) (inBox_cons.2 ⟨ravelF_lt hi, hu⟩) (inBox_cons.2 ⟨ravelF_lt hj, hv⟩), ← q3 i j hi hj]
    constructor
    · intro h
      refine ⟨h 0 (by simp), fun t ht => ?_⟩
      have := h (t + 1) (by simpa using ht)
      rw [List.getElem_cons_succ, List.getElem_map] at this
      rw [List.getD_eq_getElem _ _ ht]
      exact ((hmat _ (List.getElem_mem ht)).2.2.2.2 _ _).1 this
    · rintro ⟨h1, h2⟩ t ht
      rcases t with _ | t
      · exact h1
      · have ht' : t < sib.length := by simpa using ht
        have := h2 t ht'
        rw [List.getD_eq_getElem _ _ ht'] at this
        rw [List.getElem_cons_succ, List.getElem_map]
        exact ((hmat _ (List.getElem_mem ht')).2.2.2.2 _ _).2 this

open Classical in
/-- C206, for the two factors of a low-rank node: the path of the node and the path of the other axes of its parent. -/
theorem adaptPathLowRank_spec (hx : WF x) (hP : AreSets x P) {g a : Nat} (he : Edge x.tree g a) (hact : x.active a = true) (r : Nat)
    (hr : r = if IsRoot x.tree g then 1 else x.rank g) (sib : List Nat) (hsib : sib = (x.tree.children g).filter (· ≠ a)) (hne : sib ≠ []) :
    ∃ p q, adaptPathLowRank x P a = .ok (p, q) ∧ p.shape = [(nodeAxes x a).prod, (nodeCounts x P a).prod] ∧
      (∀ i j, InBox (nodeAxes x a) i → InBox (nodeCounts x P a) j →
        (p.get [ravelF (nodeAxes x a) i, ravelF (nodeCounts x P a) j] = true ↔ NodeKeeps x P a i j)) ∧
      q.shape = [(sib.map (childSize x) ++ [r]).prod, (sib.map (setCount x P)).prod] ∧
      ∀ u k v, InBox (sib.map (childSize x)) u → k < r → InBox (sib.map (setCount x P)) v →
        (q.get [ravelF (sib.map (childSize x) ++ [r]) (u ++ [k]), ravelF (sib.map (setCount x P)) v] = true ↔
          ∀ t, t < sib.length → AxisKeeps x P (sib.getD t 0) (u.getD t 0) (v.getD t 0)) := by
  obtain ⟨ro, hro, hroot⟩ := root_ok hx.valid
  have hnr : ¬ IsRoot x.tree a := fun h => h.2 g he
  have hgp := edge_parent hx.valid he
  have hrk : upd x.rank ro 1 g = r := by
    rw [hr]
    unfold upd
    by_cases h : IsRoot x.tree g
    · rw [if_pos h, if_pos (root_unique hx.valid h hroot)]
    · rw [if_neg h, if_neg (fun e : g = ro => h (e ▸ hroot))]
  have hra : upd x.rank ro 1 a = x.rank a := by
    unfold upd
    exact if_neg (fun e : a = ro => hnr (e ▸ hroot))
  obtain ⟨q, q1, q2, q3⟩ := headPath_spec hx hP he.2.1 hact hnr
  have hmem : ∀ c ∈ sib, Edge x.tree g c := fun c hc => by
    rw [hsib] at hc
    exact (mem_children _ _ he.1).1 (List.mem_filter.1 hc).1
  have hmat := fun c (hc : c ∈ sib) => axisMat_spec hx hP (hmem c hc).2.1 (fun h => h.2 g (hmem c hc)) (ranks := upd x.rank ro 1)
    (by unfold upd; exact if_neg (fun e : c = ro => (e ▸ hroot).2 g (hmem c hc)))
  have hnd := nodup_children (T := x.tree) g
  have hin : a ∈ x.tree.children g := (mem_children _ _ he.1).2 he
  have hna : ∀ c ∈ sib, (x.tree.children g).idxOf c ≠ (x.tree.children g).idxOf a := fun c hc h => by
    have h1 : c ∈ x.tree.children g := (mem_children _ _ he.1).2 (hmem c hc)
    have := (List.idxOf_inj h1).1 h
    rw [hsib] at hc
    exact absurd this (by simpa using (List.mem_filter.1 hc).2)
  have hplace := placePaths_ok (x := x) P (upd x.rank ro 1)
    (fun nod => x.tree.childNumber nod - 1 - if x.tree.childNumber a < x.tree.childNumber nod then 1 else 0) (axisMat x P) sib 0
    (List.replicate sib.length ⟨[], fun _ => true⟩) (by simp) (fun c hc => (hmat c hc).1) (fun t ht => by
      have hp := (siblings_pos hnd hin (t := t) (by rw [← hsib]; exact ht)).2
      simp only [← hsib] at hp
      have := hna _ (List.getElem_mem ht)
      rw [childNumber_eq hx (hmem _ (List.getElem_mem ht)), childNumber_eq hx he]
      split_ifs at hp ⊢ <;> omega)
  rw [List.take_zero, List.nil_append] at hplace
  obtain ⟨p, p1, p2, p3⟩ := kronLoop_spec (sib.map (axisMat x P)) (by simpa using hne) (fun A hA => by
    obtain ⟨c, hc, rfl⟩ := List.mem_map.1 hA
    exact (hmat c hc).2.1)
  have er : (sib.map (axisMat x P)).map rowsB = sib.map (childSize x) := by
    rw [List.map_map]
    exact List.map_congr_left (fun c hc => (hmat c hc).2.2.1)
  have ec : (sib.map (axisMat x P)).map colsB = sib.map (setCount x P) := by
    rw [List.map_map]
    exact List.map_congr_left (fun c hc => (hmat c hc).2.2.2.1)
  rw [er, ec] at p2 p3
  simp only [adaptPathLowRank, hro, bind, Except.bind, q1, hgp, hra, ← hsib, hplace, p1, hrk]
  refine ⟨_, _, rfl, q2, q3, ?_, fun u k v hu hk hv => ?_⟩
  · show [r * p.shape.getD 0 0, p.shape.getD 1 0] = _
    rw [p2]
    simp [mul_comm]
  · show p.get [_ % p.shape.getD 0 0, _] = true ↔ _
    simp only [p2, List.getD_cons_zero, List.getD_cons_succ]
    rw [row_mod hu, p3 u v hu hv]
    constructor
    · intro h t ht
      have := h t (by simpa using ht)
      rw [List.getElem_map] at this
      rw [List.getD_eq_getElem _ _ ht]
      exact ((hmat _ (List.getElem_mem ht)).2.2.2.2 _ _).1 this
    · intro h t ht
      have ht' : t < sib.length := by simpa using ht
      have := h t ht'
      rw [List.getD_eq_getElem _ _ ht'] at this
      rw [List.getElem_map]
      exact ((hmat _ (List.getElem_mem ht')).2.2.2.2 _ _).2 this

/-- C205, for the tensor of a node: if the coefficients vanish outside a column of the path, the new tensor of the node has nonzero entries only
where the chosen sets keep the subscripts. -/
theorem adaptPath_support {x : TBT ℝ} {P : List (Arr Bool)} (hx : WF x) (hP : AreSets x P) {a : Nat} (hn : IsNode x.tree a)
    (hact : x.active a = true) (hnr : ¬ IsRoot x.tree a) (hc : a ∈ x.tree.dim2ind ∨ ∃ c ∈ x.tree.children a, x.active c ≠ true)
    (jdx : List Nat) (hj : InBox (nodeCounts x P a) jdx) (coef : Arr ℝ) (hcoef : coef.shape = [(x.tensors a).shape.prod])
    (hsup : ∀ p, adaptPath x P a = .ok p → ∀ i, i < (x.tensors a).shape.prod → coef.get [i] ≠ 0 →
      p.get [i, ravelF (nodeCounts x P a) jdx] = true) :
    ((setParameter x a coef).tensors a).shape = (x.tensors a).shape ∧
      ∀ idx k, InBox (nodeAxes x a) idx → k < x.rank a → ((setParameter x a coef).tensors a).get (idx ++ [k]) ≠ 0 → NodeKeeps x P a idx jdx := by
  obtain ⟨p, p1, _, p3⟩ := adaptPath_spec hx hP hn hact (x.rank a) (by rw [if_neg hnr])
  have hshape : (x.tensors a).shape = nodeAxes x a ++ [x.rank a] := by
    rw [rank_active hn hnr hact]
    by_cases hl : a ∈ x.tree.dim2ind
    · obtain ⟨n, r, h⟩ := hx.leaf a hl hact
      rw [nodeAxes_leaf hx hl hact, lastDim_of_shape (s := [n]) h]
      unfold TBT.leafSize
      rw [if_pos hact, h]; rfl
    · obtain ⟨_, h1, _, h2⟩ := hx.node a hn hl
      rw [nodeAxes_internal hx hn hl]
      match hE : rankShape x a, h2 hnr with
      | [m], _ =>
        rw [hE] at h1
        rw [h1, lastDim_of_shape h1]
  have hset : (setParameter x a coef).tensors a = reshapeF coef (x.tensors a).shape := by
    unfold setParameter upd
    simp
  rw [hset]
  refine ⟨rfl, fun idx k hi hk hne => ?_⟩
  have hb : InBox (nodeAxes x a ++ [x.rank a]) (idx ++ [k]) := (inBox_append hi.length_eq).2 ⟨hi, inBox_one hk⟩
  have hlt := ravelF_lt hb
  refine ((p3 hc).2 idx k jdx hi hk hj).1 (hsup p p1 _ (by rw [hshape]; exact hlt) ?_)
  have : (reshapeF coef (x.tensors a).shape).get (idx ++ [k]) = coef.get [ravelF (nodeAxes x a ++ [x.rank a]) (idx ++ [k])] := by
    show coef.get (unravelF coef.shape (ravelF (x.tensors a).shape (idx ++ [k]))) = _
    rw [hcoef, hshape]
    simp [unravelF, Nat.mod_eq_of_lt (by simpa using hlt)]
  rw [← this]
  exact hne

/-! ### The hypotheses are met -/

/-- Sets of basis functions for `exT`: two nested sets for the dimension 1, whose leaf is inactive. -/
def exSets : List (Arr Bool) :=
  [⟨[3, 2], fun ij => ij.getD 0 0 ≤ ij.getD 1 0⟩, ⟨[2, 2], fun ij => ij.getD 0 0 ≤ ij.getD 1 0⟩, ⟨[2, 1], fun ij => ij.getD 0 0 == 0⟩]

theorem exSets_areSets : AreSets exT exSets where
  len := rfl
  shape := fun c hc => ⟨(setsOf exT exSets c).shape.getD 1 0, by
    revert c
    decide +kernel⟩

example : IsNode exT.tree 2 ∧ exT.active 2 = true ∧ ¬ IsRoot exT.tree 2 ∧ (∃ c ∈ exT.tree.children 2, exT.active c ≠ true) ∧
    nodeAxes exT 2 = [2, 2] ∧ nodeCounts exT exSets 2 = [1, 2] ∧ nodeCounts exT exSets 3 = [4] ∧ Edge exT.tree 2 3 ∧ exT.active 3 = true ∧
    (exT.tree.children 2).filter (· ≠ 3) = [4] ∧ NodeKeeps exT exSets 2 [1, 1] [0, 1] ∧ ¬ NodeKeeps exT exSets 2 [1, 1] [0, 0] := by
  have h2 : IsNode exT.tree 2 := by unfold IsNode; decide
  have he : Edge exT.tree 1 2 := (mem_children _ _ (by unfold IsNode; decide)).1 (by decide)
  have he' : Edge exT.tree 2 3 := (mem_children _ _ h2).1 (by decide)
  refine ⟨h2, by decide +kernel, fun h => h.2 1 he, ⟨4, by decide, by decide +kernel⟩, by decide +kernel, by decide +kernel, by decide +kernel,
    he', by decide +kernel, by decide, ?_, ?_⟩
  · unfold NodeKeeps AxisKeeps
    rw [if_neg (by decide)]
    decide +kernel
  · unfold NodeKeeps AxisKeeps
    rw [if_neg (by decide)]
    decide +kernel

end Verif.TreeBased
