import Verif.Spec.Tree
import Mathlib.Data.List.Sort
import Mathlib.Data.List.Perm.Subperm
import Mathlib.Data.List.Nodup
import Mathlib.Algebra.BigOperators.Group.List.Lemmas
import Mathlib.Algebra.Order.BigOperators.Group.List

namespace Verif.DimTree
open DTree

variable {T : DTree}

theorem mem_nodes (i : Nat) : i ∈ T.nodes ↔ IsNode T i := by
  unfold nodes IsNode
  simp only [List.mem_map, List.mem_range]
  constructor
  · rintro ⟨a, h, rfl⟩; omega
  · intro h; exact ⟨i - 1, by omega, by omega⟩

theorem nodup_nodes : T.nodes.Nodup := by
  unfold nodes
  exact List.nodup_range.map (fun a b h => by simpa using h)

theorem mem_children (i j : Nat) (hi : IsNode T i) : j ∈ T.children i ↔ Edge T i j := by
  unfold children Edge
  simp only [List.mem_map, List.mem_filter, List.mem_range]
  constructor
  · rintro ⟨a, ⟨h, h'⟩, rfl⟩
    exact ⟨hi, ⟨by omega, by omega⟩, h'⟩
  · rintro ⟨_, ⟨h1, h2⟩, h3⟩
    exact ⟨j - 1, ⟨by omega, h3⟩, by omega⟩

theorem nodup_children (i : Nat) : (T.children i).Nodup := by
  unfold children
  exact (List.nodup_range.filter _).map (fun a b h => by simpa using h)

theorem children_sorted (i : Nat) : (T.children i).Pairwise (· < ·) := by
  unfold children
  exact (List.pairwise_lt_range.filter _).map _ (fun a b h => by simpa using h)

theorem sum_ite_one {n : Nat} (P : Nat → Bool) (i : Nat) (hi : i < n) (hP : P i = true)
    (hu : ∀ k, k < n → P k = true → k = i) :
    ((List.range n).map (fun k => if P k then k + 1 else 0)).sum = i + 1 := by
  induction n with
  | zero => omega
  | succ n ih =>
    rw [List.range_succ, List.map_append, List.sum_append]
    by_cases hin : i = n
    · subst hin
      have : ((List.range i).map (fun k => if P k then k + 1 else 0)).sum = 0 := by
        rw [List.sum_eq_zero]
        intro x hx
        obtain ⟨k, hk, rfl⟩ := List.mem_map.1 hx
        rw [List.mem_range] at hk
        split
        · next h => exact absurd (hu k (by omega) h) (by omega)
        · rfl
      rw [this]; simp [hP]
    · rw [ih (by omega) (fun k hk h => hu k (by omega) h)]
      have : P n = false := by
        rcases h : P n with _ | _
        · rfl
        · exact absurd (hu n (by omega) h).symm hin
      simp [this]

theorem parent_eq_of_edge (hV : ∀ i i' j, Edge T i j → Edge T i' j → i = i') {i j : Nat}
    (h : Edge T i j) : T.parent j = i := by
  unfold parent
  obtain ⟨hi, hj, ha⟩ := h
  have := sum_ite_one (n := T.n) (fun k => T.adj k (j - 1)) (i - 1) (by unfold IsNode at hi; omega) ha
    (fun k hk hk' => by
      have := hV (k + 1) i j ⟨⟨by omega, by omega⟩, hj, hk'⟩ ⟨hi, hj, ha⟩
      omega)
  rw [this]; unfold IsNode at hi; omega

theorem parent_eq_zero {j : Nat} (hj : IsNode T j) : T.parent j = 0 ↔ IsRoot T j := by
  unfold parent
  rw [List.sum_eq_zero_iff]
  constructor
  · intro h
    refine ⟨hj, ?_⟩
    rintro i ⟨hi, _, ha⟩
    have := h (if T.adj (i - 1) (j - 1) then i - 1 + 1 else 0)
      (List.mem_map.2 ⟨i - 1, List.mem_range.2 (by unfold IsNode at hi; omega), rfl⟩)
    rw [ha] at this
    simp at this
  · intro h x hx
    obtain ⟨k, hk, rfl⟩ := List.mem_map.1 hx
    rw [List.mem_range] at hk
    split
    · next ha => exact absurd ⟨⟨by omega, by omega⟩, hj, ha⟩ (h.2 (k + 1))
    · rfl

theorem parent_eq_iff (hV : Valid T) {i j : Nat} (hj : IsNode T j) (hi : i ≠ 0) :
    T.parent j = i ↔ Edge T i j := by
  constructor
  · intro h
    by_cases hr : IsRoot T j
    · rw [(parent_eq_zero hj).2 hr] at h; omega
    · unfold IsRoot at hr
      push Not at hr
      obtain ⟨k, hk⟩ := hr hj
      rw [parent_eq_of_edge hV.unique_parent hk] at h
      exact h ▸ hk
  · exact parent_eq_of_edge hV.unique_parent

theorem root_unique (hV : Valid T) {r r' : Nat} (h : IsRoot T r) (h' : IsRoot T r') : r = r' := by
  obtain ⟨s, hs, hr⟩ := hV.rooted
  have key : ∀ q, IsRoot T q → q = s := by
    intro q hq
    rcases Relation.ReflTransGen.cases_tail (hr q hq.1) with h1 | ⟨c, _, h2⟩
    · exact h1
    · exact absurd h2 (hq.2 c)
  rw [key r h, key r' h']

theorem root_ok (hV : Valid T) : ∃ r, T.root = .ok r ∧ IsRoot T r := by
  obtain ⟨s, hs, hr⟩ := hV.rooted
  have hmem : ∀ x, x ∈ T.nodes.filter (fun i => T.parent i == 0) ↔ IsRoot T x := by
    intro x
    rw [List.mem_filter, mem_nodes]
    constructor
    · rintro ⟨h1, h2⟩
      exact (parent_eq_zero h1).1 (by simpa using h2)
    · intro h
      exact ⟨h.1, by simpa using (parent_eq_zero h.1).2 h⟩
  unfold root
  cases hl : T.nodes.filter (fun i => T.parent i == 0) with
  | nil => have := (hmem s).2 hs; rw [hl] at this; simp at this
  | cons r l =>
    exact ⟨r, rfl, (hmem r).1 (by rw [hl]; simp)⟩

theorem HasLevel.isNode {j k : Nat} (h : HasLevel T j k) : IsNode T j := by
  cases h with
  | root h => exact h.1
  | child _ h => exact h.2.1

theorem HasLevel.unique (hu : ∀ i i' j, Edge T i j → Edge T i' j → i = i') {j k k' : Nat}
    (h : HasLevel T j k) (h' : HasLevel T j k') : k = k' := by
  induction h generalizing k' with
  | root hr =>
    cases h' with
    | root _ => rfl
    | child _ he => exact absurd he (hr.2 _)
  | child h1 he ih =>
    cases h' with
    | root hr => exact absurd he (hr.2 _)
    | child h2 he' =>
      have := hu _ _ _ he he'
      subst this
      rw [ih h2]

theorem exists_level (hV : Valid T) {j : Nat} (hj : IsNode T j) : ∃ k, HasLevel T j k := by
  obtain ⟨r, hr, hall⟩ := hV.rooted
  have := hall j hj
  clear hj
  induction this with
  | refl => exact ⟨0, .root hr⟩
  | tail _ he ih =>
    obtain ⟨k, hk⟩ := ih
    exact ⟨k + 1, .child hk he⟩

theorem HasLevel.path (hu : ∀ i i' j, Edge T i j → Edge T i' j → i = i') {j k : Nat}
    (h : HasLevel T j k) :
    ∃ l : List Nat, l.length = k + 1 ∧ l.Nodup ∧ ∀ x ∈ l, ∃ m, m ≤ k ∧ HasLevel T x m := by
  induction h with
  | root hr =>
    rename_i r
    exact ⟨[r], rfl, by simp, fun x hx => ⟨0, le_rfl, by rw [List.mem_singleton.1 hx]; exact .root hr⟩⟩
  | child h1 he ih =>
    rename_i i j k
    obtain ⟨l, h2, h3, h4⟩ := ih
    refine ⟨j :: l, by simp [h2], List.nodup_cons.2 ⟨?_, h3⟩, ?_⟩
    · intro hj
      obtain ⟨m, hm, hl⟩ := h4 j hj
      have := hl.unique hu (.child h1 he)
      omega
    · intro x hx
      rcases List.mem_cons.1 hx with rfl | hx
      · exact ⟨k + 1, le_rfl, .child h1 he⟩
      · obtain ⟨m, hm, hl⟩ := h4 x hx
        exact ⟨m, by omega, hl⟩

theorem HasLevel.lt (hu : ∀ i i' j, Edge T i j → Edge T i' j → i = i') {j k : Nat}
    (h : HasLevel T j k) : k < T.n := by
  obtain ⟨l, h1, h2, h3⟩ := h.path hu
  have hsub : l ⊆ T.nodes := by
    intro x hx
    obtain ⟨m, _, hm⟩ := h3 x hx
    exact (mem_nodes x).2 hm.isNode
  have := (h2.subperm hsub).length_le
  unfold nodes at this
  simp at this
  omega

theorem foldl_max_ge' (l : List Nat) (a : Nat) : a ≤ l.foldl max a ∧ ∀ x ∈ l, x ≤ l.foldl max a := by
  induction l generalizing a with
  | nil => simp
  | cons b l ih =>
    obtain ⟨h1, h2⟩ := ih (max a b)
    simp only [List.foldl_cons]
    refine ⟨le_trans (le_max_left _ _) h1, ?_⟩
    intro x hx
    rcases List.mem_cons.1 hx with rfl | hx
    · exact le_trans (le_max_right _ _) h1
    · exact h2 x hx

theorem length_children_le (i : Nat) (hi : IsNode T i) : (T.children i).length ≤ T.arity := by
  unfold arity
  apply (foldl_max_ge' _ 0).2
  refine List.mem_map.2 ⟨i - 1, List.mem_range.2 (by unfold IsNode at hi; omega), ?_⟩
  unfold children
  simp

theorem mem_nextLevel {ind : List Nat} (hind : ∀ i ∈ ind, IsNode T i) (j : Nat) :
    j ∈ T.nextLevel ind ↔ ∃ i ∈ ind, Edge T i j := by
  unfold nextLevel
  simp only [List.mem_flatMap, List.mem_range, List.mem_filterMap]
  constructor
  · rintro ⟨k, hk, i, hi, h⟩
    exact ⟨i, hi, (mem_children i j (hind i hi)).1 (List.mem_of_getElem? h)⟩
  · rintro ⟨i, hi, he⟩
    have hm := (mem_children i j (hind i hi)).2 he
    obtain ⟨k, hk, rfl⟩ := List.mem_iff_getElem.1 hm
    exact ⟨k, lt_of_lt_of_le hk (length_children_le i (hind i hi)), i, hi,
      List.getElem?_eq_getElem hk⟩

theorem levelLoop_spec (hV : Valid T) (fuel : Nat) (ind : List Nat) (lev : Nat) (acc : Nat → Nat)
    (hind : ∀ j, j ∈ ind ↔ HasLevel T j lev)
    (hacc : ∀ j k, k < lev → HasLevel T j k → acc j = k)
    (hf : T.n < fuel + lev) (hf0 : 0 < fuel) :
    ∃ f, T.levelLoop fuel ind lev acc = .ok f ∧ ∀ j k, HasLevel T j k → f j = k := by
  induction fuel generalizing ind lev acc with
  | zero => omega
  | succ fuel ih =>
    unfold levelLoop
    split
    · next he =>
      have hnil : ind = [] := by simpa using he
      refine ⟨acc, rfl, ?_⟩
      have hno : ∀ k j, lev ≤ k → ¬ HasLevel T j k := by
        intro k
        induction k with
        | zero =>
          intro j hk h
          have : lev = 0 := by omega
          subst this
          have := (hind j).2 h
          rw [hnil] at this; simp at this
        | succ k ihk =>
          intro j hk h
          by_cases hlk : lev = k + 1
          · subst hlk
            have := (hind j).2 h
            rw [hnil] at this; simp at this
          · cases h with
            | child h1 _ => exact ihk _ (by omega) h1
      intro j k h
      by_cases hk : k < lev
      · exact hacc j k hk h
      · exact absurd h (hno k j (by omega))
    · next hne =>
      have hlev : lev < T.n := by
        cases ind with
        | nil => simp at hne
        | cons a l => exact ((hind a).1 (by simp)).lt hV.unique_parent
      apply ih
      · intro j
        rw [mem_nextLevel (fun i hi => ((hind i).1 hi).isNode)]
        constructor
        · rintro ⟨i, hi, he⟩
          exact .child ((hind i).1 hi) he
        · intro h
          cases h with
          | child h1 he => exact ⟨_, (hind _).2 h1, he⟩
      · intro j k hk h
        by_cases hj : j ∈ ind
        · rw [if_pos hj]
          exact ((hind j).1 hj).unique hV.unique_parent h
        · rw [if_neg hj]
          apply hacc j k _ h
          rcases Nat.lt_succ_iff_lt_or_eq.1 hk with h' | h'
          · exact h'
          · subst h'; exact absurd ((hind j).2 h) hj
      · omega
      · omega

theorem level_ok (hV : Valid T) :
    ∃ f, T.level = .ok f ∧ ∀ j k, HasLevel T j k → f j = k := by
  obtain ⟨r, hr, hroot⟩ := root_ok hV
  unfold level
  rw [hr]
  apply levelLoop_spec hV
  · intro j
    rw [mem_children _ _ hroot.1]
    constructor
    · intro h; exact .child (.root hroot) h
    · intro h
      cases h with
      | child h1 he =>
        cases h1 with
        | root h2 => rw [root_unique hV hroot h2]; exact he
  · intro j k hk h
    have : k = 0 := by omega
    rw [this]
  · omega
  · omega

/-- Induction from the leaves to the root. -/
theorem Valid.induct (hV : Valid T) {P : Nat → Prop}
    (h : ∀ i, IsNode T i → (∀ c, Edge T i c → P c) → P i) : ∀ i, IsNode T i → P i := by
  have key : ∀ m i k, HasLevel T i k → T.n - k = m → P i := by
    intro m
    induction m with
    | zero =>
      intro i k hk hm
      have := hk.lt hV.unique_parent
      omega
    | succ m ih =>
      intro i k hk hm
      refine h i hk.isNode (fun c hc => ?_)
      exact ih c (k + 1) (.child hk hc) (by omega)
  intro i hi
  obtain ⟨k, hk⟩ := exists_level hV hi
  exact key _ i k hk rfl

theorem isLeaf_iff (hV : Valid T) {i : Nat} (hi : IsNode T i) :
    T.isLeaf i = true ↔ ∀ j, ¬ Edge T i j := by
  unfold isLeaf
  rw [List.contains_iff_mem, hV.leaves]
  simp [hi]

theorem initDims_spec (hV : Valid T) (k x : Nat) (h : T.dim2ind[k]? = some x) : T.initDims x = [k] := by
  have gen : ∀ (l : List Nat) (s : Nat) (f : Nat → List Nat), l.Nodup → ∀ k x, l[k]? = some x →
      ((l.zipIdx s).foldl (fun f p => fun x => if x = p.1 then [p.2] else f x) f) x = [s + k] := by
    intro l
    induction l with
    | nil => intro s f _ k x h; simp at h
    | cons a l ih =>
      intro s f hnd k x h
      rw [List.nodup_cons] at hnd
      rw [List.zipIdx_cons, List.foldl_cons]
      cases k with
      | zero =>
        simp at h
        subst h
        have keep : ∀ (l : List Nat) (s : Nat) (f : Nat → List Nat), a ∉ l →
            ((l.zipIdx s).foldl (fun f p => fun x => if x = p.1 then [p.2] else f x) f) a = f a := by
          intro l
          induction l with
          | nil => intro s f _; rfl
          | cons b l ihl =>
            intro s f hn
            rw [List.zipIdx_cons, List.foldl_cons, ihl _ _ (fun h => hn (List.mem_cons_of_mem _ h))]
            rw [if_neg]
            intro h; exact hn (by simp [h])
        rw [keep _ _ _ hnd.1]
        simp
      | succ k =>
        simp only [List.getElem?_cons_succ] at h
        rw [ih _ _ hnd.2 k x h]
        congr 1; omega
  have := gen T.dim2ind 0 (fun _ => [0]) hV.nodup k x h
  simpa [initDims] using this

/-- The recursion satisfied by `dims`. -/
def RecDims (T : DTree) (D : Nat → List Nat) (P : Nat → Prop) : Prop :=
  (∀ j, T.isLeaf j = true → D j = T.initDims j) ∧
  ∀ j, P j → T.isLeaf j = false → D j = (T.children j).flatMap D

theorem dims_inner (hV : Valid T) (lev : Nat → Nat) (hlev : ∀ j k, HasLevel T j k → lev j = k) (l : Nat)
    (todo : List Nat) (D : Nat → List Nat) (P : Nat → Prop)
    (htodo : ∀ j ∈ todo, IsNode T j ∧ lev j = l)
    (hP : ∀ j, P j → IsNode T j ∧ l ≤ lev j)
    (hD : RecDims T D P) :
    ∃ D', todo.foldlM (fun D nod => T.dimsStep D nod) D = .ok D' ∧
      RecDims T D' (fun j => P j ∨ j ∈ todo) := by
  induction todo generalizing D P with
  | nil => exact ⟨D, rfl, by simpa using hD⟩
  | cons a todo ih =>
    have ha := htodo a (by simp)
    rw [List.foldlM_cons]
    have hstep : ∃ D1, T.dimsStep D a = .ok D1 ∧ RecDims T D1 (fun j => P j ∨ j = a) := by
      unfold dimsStep
      by_cases hleaf : T.isLeaf a = true
      · refine ⟨D, by rw [if_pos hleaf], hD.1, ?_⟩
        rintro j (hj | rfl) hl
        · exact hD.2 j hj hl
        · rw [hleaf] at hl; cases hl
      · rw [if_neg hleaf]
        have hne : (T.children a).isEmpty = false := by
          rw [isLeaf_iff hV ha.1] at hleaf
          push Not at hleaf
          obtain ⟨j, hj⟩ := hleaf
          have := (mem_children a j ha.1).2 hj
          cases hc : T.children a with
          | nil => rw [hc] at this; simp at this
          | cons _ _ => rfl
        rw [if_neg (by simp [hne])]
        have hkey : ∀ j, IsNode T j → l ≤ lev j →
            (T.children j).flatMap (fun x => if x = a then (T.children a).flatMap D else D x)
              = (T.children j).flatMap D := by
          intro j hj hlj
          apply List.flatMap_congr
          intro c hc
          rw [if_neg]
          rintro rfl
          have he := (mem_children j c hj).1 hc
          obtain ⟨k, hk⟩ := exists_level hV hj
          have h1 := hlev _ _ hk
          have h2 := hlev _ _ (.child hk he)
          omega
        refine ⟨_, rfl, ?_, ?_⟩
        · intro j hj
          dsimp only
          rw [if_neg]
          · exact hD.1 j hj
          · rintro rfl; exact hleaf hj
        · rintro j hj hl
          dsimp only
          by_cases hja : j = a
          · subst hja
            rw [if_pos rfl, hkey j ha.1 (by omega)]
          · rw [if_neg hja]
            rcases hj with hj | hj
            · rw [hkey j (hP j hj).1 (hP j hj).2]
              exact hD.2 j hj hl
            · exact absurd hj hja
    obtain ⟨D1, h1, h2⟩ := hstep
    rw [h1]
    obtain ⟨D', h3, h4⟩ := ih D1 (fun j => P j ∨ j = a) (fun j hj => htodo j (by simp [hj]))
      (by
        rintro j (hj | rfl)
        · exact hP j hj
        · exact ⟨ha.1, by omega⟩) h2
    refine ⟨D', h3, h4.1, ?_⟩
    intro j hj
    apply h4.2
    rcases hj with hj | hj
    · exact .inl (.inl hj)
    · rcases List.mem_cons.1 hj with rfl | hj
      · exact .inl (.inr rfl)
      · exact .inr hj

theorem mem_nodesWithLevel (lev : Nat → Nat) (l i : Nat) :
    i ∈ T.nodesWithLevel lev l ↔ IsNode T i ∧ lev i = l := by
  unfold nodesWithLevel
  rw [List.mem_filter, mem_nodes]
  simp

theorem dims_outer (hV : Valid T) (lev : Nat → Nat) (hlev : ∀ j k, HasLevel T j k → lev j = k) (L : Nat)
    (D : Nat → List Nat) (P : Nat → Prop) (hP : ∀ j, P j ↔ IsNode T j ∧ L ≤ lev j)
    (hD : RecDims T D P) :
    ∃ D', (List.range L).reverse.foldlM
      (fun D l => (T.nodesWithLevel lev l).foldlM (fun D nod => T.dimsStep D nod) D) D = .ok D' ∧
      RecDims T D' (IsNode T) := by
  induction L generalizing D P with
  | zero =>
    refine ⟨D, rfl, hD.1, fun j hj => hD.2 j ((hP j).2 ⟨hj, Nat.zero_le _⟩)⟩
  | succ L ih =>
    rw [List.range_succ, List.reverse_append, List.reverse_singleton, List.singleton_append,
      List.foldlM_cons]
    obtain ⟨D1, h1, h2⟩ := dims_inner hV lev hlev L (T.nodesWithLevel lev L) D P
      (fun j hj => (mem_nodesWithLevel lev L j).1 hj)
      (fun j hj => by have := (hP j).1 hj; exact ⟨this.1, by omega⟩) hD
    rw [h1]
    refine ih D1 _ ?_ h2
    intro j
    rw [hP, mem_nodesWithLevel]
    constructor
    · rintro (h | h)
      · exact ⟨h.1, by omega⟩
      · exact ⟨h.1, by omega⟩
    · rintro ⟨h1, h2⟩
      by_cases h : L + 1 ≤ lev j
      · exact .inl ⟨h1, h⟩
      · exact .inr ⟨h1, by omega⟩

theorem dims_ok (hV : Valid T) : ∃ D, T.dims = .ok D ∧ RecDims T D (IsNode T) := by
  obtain ⟨lev, hl, hlev⟩ := level_ok hV
  unfold dims
  rw [hl]
  refine dims_outer hV lev hlev _ T.initDims (fun j => IsNode T j ∧ T.maxLevel lev + 1 ≤ lev j)
    (fun j => Iff.rfl) ⟨fun _ _ => rfl, ?_⟩
  intro j hj
  exfalso
  have : lev j ≤ T.maxLevel lev :=
    (foldl_max_ge' _ 0).2 _ (List.mem_map.2 ⟨j, (mem_nodes j).2 hj.1, rfl⟩)
  omega

theorem AncSelf.isNode {i j : Nat} (hi : IsNode T i) (h : AncSelf T i j) : IsNode T j := by
  induction h with
  | refl => exact hi
  | tail _ he _ => exact he.2.1

theorem ancSelf_cases {i x : Nat} (h : AncSelf T i x) : i = x ∨ ∃ c, Edge T i c ∧ AncSelf T c x :=
  Relation.ReflTransGen.cases_head h

/-- The ancestors of a node form a chain. -/
theorem anc_chain (hV : Valid T) {i j x : Nat} (h1 : AncSelf T i x) (h2 : AncSelf T j x) :
    AncSelf T i j ∨ AncSelf T j i := by
  induction h1 generalizing j with
  | refl => exact .inr h2
  | tail h he ih =>
    rcases Relation.ReflTransGen.cases_tail h2 with rfl | ⟨c, hc, hc'⟩
    · exact .inl (h.tail he)
    · have := hV.unique_parent _ _ _ he hc'
      subst this
      exact ih hc

theorem AncSelf.level_le {i j k l : Nat} (hV : Valid T) (h : AncSelf T i j) (hi : HasLevel T i k)
    (hj : HasLevel T j l) : k ≤ l ∧ (k = l → i = j) := by
  induction h generalizing l with
  | refl =>
    have := hi.unique hV.unique_parent hj
    exact ⟨by omega, fun _ => rfl⟩
  | tail h he ih =>
    cases hj with
    | root hr => exact absurd he (hr.2 _)
    | child h1 he' =>
      have := hV.unique_parent _ _ _ he he'
      subst this
      have := ih h1
      exact ⟨by omega, by omega⟩

/-- Two distinct nodes of the same level have no common descendant. -/
theorem disjoint_of_level (hV : Valid T) {i j k x : Nat} (hi : HasLevel T i k) (hj : HasLevel T j k)
    (h1 : AncSelf T i x) (h2 : AncSelf T j x) : i = j := by
  rcases anc_chain hV h1 h2 with h | h
  · exact (h.level_le hV hi hj).2 rfl
  · exact ((h.level_le hV hj hi).2 rfl).symm

theorem recDims_mem (hV : Valid T) {D : Nat → List Nat} (hD : RecDims T D (IsNode T)) :
    ∀ i, IsNode T i → ∀ k, k ∈ D i ↔ ∃ x, T.dim2ind[k]? = some x ∧ AncSelf T i x := by
  refine hV.induct ?_
  intro i hi ih k
  by_cases hl : T.isLeaf i = true
  · rw [hD.1 i hl]
    have hno := (isLeaf_iff hV hi).1 hl
    have hm : i ∈ T.dim2ind := by simpa [isLeaf] using hl
    obtain ⟨m, hm', hm⟩ := List.mem_iff_getElem.1 hm
    have hmi : T.dim2ind[m]? = some i := by rw [List.getElem?_eq_getElem hm', hm]
    rw [initDims_spec hV m i hmi, List.mem_singleton]
    constructor
    · rintro rfl
      exact ⟨i, hmi, .refl⟩
    · rintro ⟨x, hx, hax⟩
      rcases ancSelf_cases hax with rfl | ⟨c, hc, _⟩
      · obtain ⟨hk, hk'⟩ := List.getElem?_eq_some_iff.1 hx
        exact (hV.nodup.getElem_inj_iff).1 (hk'.trans hm.symm)
      · exact absurd hc (hno c)
  · have hl' : T.isLeaf i = false := by simpa using hl
    rw [hD.2 i hi hl', List.mem_flatMap]
    constructor
    · rintro ⟨c, hc, hk⟩
      have he := (mem_children i c hi).1 hc
      obtain ⟨x, hx, hax⟩ := (ih c he k).1 hk
      exact ⟨x, hx, Relation.ReflTransGen.head he hax⟩
    · rintro ⟨x, hx, hax⟩
      rcases ancSelf_cases hax with rfl | ⟨c, hc, hcx⟩
      · exfalso
        apply hl
        unfold isLeaf
        rw [List.contains_iff_mem]
        exact List.mem_of_getElem? hx
      · exact ⟨c, (mem_children i c hi).2 hc, (ih c hc k).2 ⟨x, hx, hcx⟩⟩

theorem recDims_disjoint (hV : Valid T) {D : Nat → List Nat} (hD : RecDims T D (IsNode T))
    {i j l : Nat} (hi : HasLevel T i l) (hj : HasLevel T j l) (hij : i ≠ j) : (D i).Disjoint (D j) := by
  intro k h1 h2
  obtain ⟨x, hx, hax⟩ := (recDims_mem hV hD i hi.isNode k).1 h1
  obtain ⟨y, hy, hay⟩ := (recDims_mem hV hD j hj.isNode k).1 h2
  rw [hx] at hy
  cases hy
  exact hij (disjoint_of_level hV hi hj hax hay)

theorem recDims_nodup (hV : Valid T) {D : Nat → List Nat} (hD : RecDims T D (IsNode T)) :
    ∀ i, IsNode T i → (D i).Nodup := by
  refine hV.induct ?_
  intro i hi ih
  by_cases hl : T.isLeaf i = true
  · rw [hD.1 i hl]
    have hm : i ∈ T.dim2ind := by simpa [isLeaf] using hl
    obtain ⟨m, hm', hm⟩ := List.mem_iff_getElem.1 hm
    rw [initDims_spec hV m i (by rw [List.getElem?_eq_getElem hm', hm])]
    simp
  · have hl' : T.isLeaf i = false := by simpa using hl
    rw [hD.2 i hi hl', List.nodup_flatMap]
    refine ⟨fun c hc => ih c ((mem_children i c hi).1 hc), ?_⟩
    obtain ⟨l, hil⟩ := exists_level hV hi
    refine List.Pairwise.imp_of_mem ?_ (nodup_children (T := T) i)
    intro a b ha hb hab
    exact recDims_disjoint hV hD (.child hil ((mem_children i a hi).1 ha))
      (.child hil ((mem_children i b hi).1 hb)) hab

theorem exists_leaf_below (hV : Valid T) : ∀ i, IsNode T i → ∃ x, x ∈ T.dim2ind ∧ AncSelf T i x := by
  refine hV.induct ?_
  intro i hi ih
  by_cases h : ∃ j, Edge T i j
  · obtain ⟨j, hj⟩ := h
    obtain ⟨x, hx, hax⟩ := ih j hj
    exact ⟨x, hx, Relation.ReflTransGen.head hj hax⟩
  · push Not at h
    exact ⟨i, (hV.leaves i).2 ⟨hi, h⟩, .refl⟩

end Verif.DimTree
