import Verif.Lemmas.TreeSqueeze
import Verif.Lemmas.TreeLeaf
import Verif.Props.TreeUnique

/-!
# `squeeze` of tree-based tensors
-/

namespace Verif.TreeBased

open Verif.Arr Verif.DimTree Verif.DimTree.DTree Finset

variable {R : Type}

/-- All the dimensions below the node `i` are in `D`. -/
def Gone (T : DTree) (D : List Nat) (i : Nat) : Prop := ∀ c ∈ T.dim2ind, AncSelf T i c → dimOf T c ∈ D

theorem gone_leaf {T : DTree} (hV : Valid T) {D : List Nat} {c : Nat} (hc : c ∈ T.dim2ind) : Gone T D c ↔ dimOf T c ∈ D := by
  constructor
  · intro h; exact h c hc .refl
  · intro h c' _ hcc'
    rw [← ancSelf_leaf hV hc hcc']; exact h

theorem gone_internal {T : DTree} {D : List Nat} {i : Nat} (hl : i ∉ T.dim2ind) :
    Gone T D i ↔ ∀ c, Edge T i c → Gone T D c := by
  constructor
  · intro h c he c' hc' hcc'
    exact h c' hc' (.head he hcc')
  · intro h c hc hic
    rcases ancSelf_cases hic with hic | ⟨d, hd, hdc⟩
    · exact absurd (hic ▸ hc) hl
    · exact h d hd c hc hdc

open Classical in
/-- `Gone` as a boolean. -/
noncomputable def gone (T : DTree) (D : List Nat) (i : Nat) : Bool := decide (Gone T D i)

theorem gone_iff {T : DTree} {D : List Nat} {i : Nat} : gone T D i = true ↔ Gone T D i := by unfold gone; simp

/-- The entries of the contracted tensor of the node `i`. -/
noncomputable def contracted [CommSemiring R] (x : TBT R) (D : List Nat) (V : Nat → List Nat → List Nat → R) (i : Nat) (u e : List Nat) : R :=
  gsum (fun c => x.active c && gone x.tree D c) (childSize x) (fun c s => V c [] [s]) (x.tree.children i)
    (fun t => (x.tensors i).get (t ++ e)) (weave (gone x.tree D) (x.tree.children i) [] u)

/-- The state of the loop after the internal nodes `P`. -/
structure SInv [CommSemiring R] (x : TBT R) (D : List Nat) (V : Nat → List Nat → List Nat → R) (st : (Nat → Arr R) × List Nat)
    (P : Nat → Prop) : Prop where
  ind : ∀ c, c ∈ st.2 ↔ IsNode x.tree c ∧ Gone x.tree D c ∧ (c ∈ x.tree.dim2ind ∨ P c)
  leaf : ∀ c ∈ x.tree.dim2ind, (¬ Gone x.tree D c ∨ ∀ p, Edge x.tree p c → ¬ P p) → st.1 c = x.tensors c
  todo : ∀ i, IsNode x.tree i → i ∉ x.tree.dim2ind → ¬ P i → st.1 i = x.tensors i
  node : ∀ i, IsNode x.tree i → i ∉ x.tree.dim2ind → P i → (¬ Gone x.tree D i ∨ ∀ p, Edge x.tree p i → ¬ P p) →
    (st.1 i).shape = ((x.tree.children i).filter (fun c => !gone x.tree D c)).map (childSize x) ++ rankShape x i ∧
    ∀ u e, InBox (((x.tree.children i).filter (fun c => !gone x.tree D c)).map (childSize x)) u → InBox (rankShape x i) e →
      (st.1 i).get (u ++ e) = contracted x D V i u e

theorem inBox_weave_zero (p : Nat → Bool) (cs : List Nat) (sz : Nat → Nat) {u : List Nat} (h1 : ∀ c ∈ cs, p c = true → 0 < sz c)
    (hu : InBox ((cs.filter (fun c => !p c)).map sz) u) : InBox (cs.map sz) (weave p cs [] u) := by
  induction cs generalizing u with
  | nil => exact .nil
  | cons c cs ih =>
    have ih' := fun u => @ih u (fun c hc => h1 c (by simp [hc]))
    rw [weave]
    by_cases hp : p c = true
    · rw [if_pos hp]
      rw [List.filter_cons_of_neg (by simp [hp])] at hu
      exact .cons (h1 c (by simp) hp) (ih' u hu)
    · rw [if_neg hp]
      rw [List.filter_cons_of_pos (by simp [hp])] at hu
      cases hu with
      | cons a b => exact .cons a (ih' _ b)

theorem dropAxes_nil (v : List Nat) : dropAxes [] v = v := by
  rw [dropAxes_eq]
  unfold FullTensor.setdiffRange applyPerm
  apply List.ext_getElem
  · simp
  · intro k h1 h2
    simp [List.getElem?_eq_getElem h2]

theorem entriesOff_dropAxes (ax v : List Nat) : entriesOff ax v = dropAxes ax v := by
  rw [dropAxes_eq]
  unfold entriesOff applyPerm FullTensor.setdiffRange
  congr 1
  apply List.filter_congr
  intro k _; simp

theorem squeezeAxes_spec (ts : Nat → Arr R) (nod : Nat) (axes : List Nat) (hlt : ∀ k ∈ axes, k < (ts nod).order)
    (h1 : ∀ k ∈ axes, (ts nod).shape.getD k 0 = 1) :
    ∃ y, squeezeAxes ts nod axes = .ok (upd ts nod y) ∧ y.shape = dropAxes axes (ts nod).shape ∧
      ∀ idx, InBox (ts nod).shape idx → y.get (dropAxes axes idx) = (ts nod).get idx := by
  unfold squeezeAxes
  by_cases ha : axes = []
  · rw [if_pos ha]
    refine ⟨ts nod, ?_, by rw [ha, dropAxes_nil], fun idx _ => by rw [ha, dropAxes_nil]⟩
    congr 1
    funext j
    by_cases hj : j = nod
    · rw [hj, upd_self]
    · rw [upd_ne _ _ hj]
  · rw [if_neg ha]
    obtain ⟨y, y1, y2, y3⟩ := FullTensor.squeezeT_spec (ts nod) axes hlt h1
    refine ⟨y, by simp only [y1, bind, Except.bind], by rw [y2, entriesOff_dropAxes], ?_⟩
    intro idx hi
    rw [← entriesOff_dropAxes]; exact y3 idx hi

theorem weave_congr {p p' : Nat → Bool} (cs s t : List Nat) (h : ∀ c ∈ cs, p c = p' c) : weave p cs s t = weave p' cs s t := by
  induction cs generalizing s t with
  | nil => rfl
  | cons c cs ih =>
    rw [weave, weave, h c (by simp)]
    simp only [ih _ _ (fun c hc => h c (by simp [hc]))]

theorem gsum_congr [CommSemiring R] {q q' : Nat → Bool} (sz : Nat → Nat) (W : Nat → Nat → R) (cs : List Nat) (k : List Nat → R) (w : List Nat)
    (h : ∀ c ∈ cs, q c = q' c) : gsum q sz W cs k w = gsum q' sz W cs k w := by
  induction cs generalizing k w with
  | nil => rfl
  | cons c cs ih =>
    rw [gsum, gsum, h c (by simp)]
    simp only [ih _ _ (fun c hc => h c (by simp [hc]))]

/-- The value of a node with the subscripts zero in `D`. -/
theorem value_contracted [CommSemiring R] (x : TBT R) (h : WF x) (D : List Nat) {V : Nat → List Nat → List Nat → R} (hv : IsValue x V)
    {i : Nat} (hi : IsNode x.tree i) (hl : i ∉ x.tree.dim2ind) {idx : List Nat} (hz : ∀ d ∈ D, idx.getD d 0 = 0) (e : List Nat) :
    V i idx e = psum x.active x.lastDim (dimOf x.tree) V idx ((x.tree.children i).filter (fun c => !gone x.tree D c))
      (fun u => contracted x D V i u e) := by
  rw [hv.node i hi hl, childSum_psum]
  refine psum_gsum (gone x.tree D) (childSize x) (fun c s => V c [] [s]) _ _ ?_ ?_
  · intro c hc hg ha
    refine ⟨by unfold childSize; rw [if_pos ha], fun s => ?_⟩
    refine value_indep x h hv c ((mem_children i c hi).1 hc).2.1 ha ?_ [s]
    intro c' hc' hcc'
    rw [hz _ (gone_iff.1 hg c' hc' hcc')]; simp
  · intro c hc hg ha
    have hcl := h.inactive_leaf ((mem_children i c hi).1 hc).2.1 ha
    exact hz _ ((gone_leaf h.valid hcl).1 (gone_iff.1 hg))

theorem leafSize_one {x : TBT R} {D : List Nat} (hD : ∀ d ∈ D, x.shape.getD d 0 = 1) {c : Nat} (hc : c ∈ x.tree.dim2ind)
    (hV : Valid x.tree) (hg : Gone x.tree D c) : x.leafSize c = 1 := by
  rw [← shape_getD hc]; exact hD _ ((gone_leaf hV hc).1 hg)

theorem SInv.step [CommSemiring R] {x : TBT R} (h : WF x) {D : List Nat} (hD : ∀ d ∈ D, x.shape.getD d 0 = 1)
    {V : Nat → List Nat → List Nat → R} (hv : IsValue x V) {st : (Nat → Arr R) × List Nat} {P : Nat → Prop} (hI : SInv x D V st P) {i : Nat}
    (hi : IsNode x.tree i) (hl : i ∉ x.tree.dim2ind) (hPi : ¬ P i) (hch : ∀ c, Edge x.tree i c → c ∉ x.tree.dim2ind → P c) :
    ∃ st', squeezeNode x st i = .ok st' ∧ SInv x D V st' (fun j => P j ∨ j = i) := by
  obtain ⟨r, _, hroot⟩ := root_ok h.valid
  have hs := h.shaped hroot
  have hrl := h.root_internal hroot
  obtain ⟨cs, hcs⟩ : ∃ cs, cs = x.tree.children i := ⟨_, rfl⟩
  have hnd : cs.Nodup := by rw [hcs]; exact nodup_children i
  have hedge : ∀ c, c ∈ cs ↔ Edge x.tree i c := fun c => by rw [hcs]; exact mem_children i c hi
  have hcont : ∀ c ∈ cs, st.2.contains c = gone x.tree D c := by
    intro c hc
    have he := (hedge c).1 hc
    rw [Bool.eq_iff_iff, List.contains_iff_mem, gone_iff, hI.ind]
    constructor
    · exact fun hh => hh.2.1
    · intro hg
      refine ⟨he.2.1, hg, ?_⟩
      by_cases hcl : c ∈ x.tree.dim2ind
      · exact .inl hcl
      · exact .inr (hch c he hcl)
  have honly : ∀ c ∈ cs, ∀ p, Edge x.tree p c → ¬ P p := by
    intro c hc p hp
    rw [h.valid.unique_parent p i c hp ((hedge c).1 hc)]; exact hPi
  obtain ⟨q, hq⟩ : ∃ q : Nat → Bool, q = fun c => x.active c && st.2.contains c := ⟨_, rfl⟩
  have hqg : ∀ c ∈ cs, q c = (x.active c && gone x.tree D c) := by
    intro c hc; rw [hq]; simp only [hcont c hc]
  obtain ⟨sz', hsz'⟩ : ∃ f : Nat → Nat, f = fun c => if q c then 1 else childSize x c := ⟨_, rfl⟩
  have hgone1 : ∀ c ∈ cs, gone x.tree D c = true → sz' c = 1 := by
    intro c hc hg
    rw [hsz']
    by_cases ha : x.active c = true
    · simp [hqg c hc, ha, hg]
    · have hcl := h.inactive_leaf ((hedge c).1 hc).2.1 ha
      simp only [hqg c hc, ha, Bool.false_and, Bool.false_eq_true, if_false]
      unfold childSize
      rw [if_neg ha]
      exact leafSize_one hD hcl h.valid (gone_iff.1 hg)
  have hkept : ∀ c ∈ cs, gone x.tree D c = false → sz' c = childSize x c := by
    intro c hc hg
    rw [hsz']; simp [hqg c hc, hg]
  have hshi : (st.1 i).shape = cs.map (childSize x) ++ rankShape x i := by
    rw [hI.todo i hi hl hPi, hcs]; exact (h.node i hi hl).2.1
  obtain ⟨ts1, f1, f2, f3, f4⟩ := squeezeFold x st.2 i (childSize x) (fun c s => V c [] [s]) (rankShape x i) q (fun c => by rw [hq])
    cs [] st.1 hnd (fun hh => edge_ne h.valid ((hedge i).1 hh) rfl) (by simpa using hshi)
    (by
      intro c hc hqc
      rw [hqg c hc, Bool.and_eq_true] at hqc
      obtain ⟨ha, hg⟩ := hqc
      have he := (hedge c).1 hc
      have hcr : ¬ IsRoot x.tree c := fun hh => hh.2 i he
      have hsc : childSize x c = x.lastDim c := by unfold childSize; rw [if_pos ha]
      by_cases hcl : c ∈ x.tree.dim2ind
      · have hts := hI.leaf c hcl (.inr (honly c hc))
        have hsh : (st.1 c).shape = [1, x.lastDim c] := by
          rw [hts, hs.leaf c hcl ha, leafSize_one hD hcl h.valid (gone_iff.1 hg)]
        have hrow : rowOf (st.1 c) = st.1 c := by
          unfold rowOf Arr.order
          rw [hsh]; simp
        rw [hrow, hsc]
        refine ⟨hsh, fun s _ => ?_⟩
        rw [hts, hv.leaf c hcl ha]; simp
      · obtain ⟨n1, n2⟩ := hI.node c he.2.1 hcl (hch c he hcl) (.inr (honly c hc))
        have hfil : (x.tree.children c).filter (fun c => !gone x.tree D c) = [] := by
          rw [List.filter_eq_nil_iff]
          intro c' hc'
          have := (gone_internal hcl).1 (gone_iff.1 hg) c' ((mem_children c c' he.2.1).1 hc')
          simp [gone_iff.2 this]
        have hrs : rankShape x c = [x.lastDim c] := hs.rankShape_node he.2.1 hcl hcr
        rw [hfil, hrs] at n1 n2
        simp only [List.map_nil, List.nil_append] at n1
        have hrow : rowOf (st.1 c) = (st.1 c).reshapeF [1, x.lastDim c] := by
          unfold rowOf Arr.order
          rw [n1]; simp
        rw [hrow, hsc]
        refine ⟨rfl, fun s hs' => ?_⟩
        have h1 : ((st.1 c).reshapeF [1, x.lastDim c]).get [0, s] = (st.1 c).get [s] := by
          show (st.1 c).get (unravelF (st.1 c).shape (ravelF [1, x.lastDim c] [0, s])) = _
          have : ravelF [1, x.lastDim c] [0, s] = ravelF [x.lastDim c] [s] := by simp [ravelF]
          rw [n1, this, unravelF_ravelF (.cons hs' .nil)]
        rw [h1, show [s] = [] ++ [s] from rfl, n2 [] [s] .nil (.cons hs' .nil), value_contracted x h D hv he.2.1 hcl (by simp), hfil]
        rfl)
  rw [← hsz'] at f2 f4
  simp only [List.map_nil, List.nil_append] at f2
  have hweave : cs.map sz' = weave (gone x.tree D) cs ((cs.filter (gone x.tree D)).map sz') ((cs.filter (fun c => !gone x.tree D c)).map sz') :=
    (weave_map _ _ _).symm
  have hfk : (cs.filter (fun c => !gone x.tree D c)).map sz' = (cs.filter (fun c => !gone x.tree D c)).map (childSize x) := by
    apply List.map_congr_left
    intro c hc
    rw [List.mem_filter] at hc
    exact hkept c hc.1 (by simpa using hc.2)
  have hax : removedAxes cs st.2 = posOf (gone x.tree D) cs := by
    rw [posOf_eq _ _ hnd]
    unfold posOf
    rw [List.filter_congr hcont]
  have hpos : ∀ k ∈ posOf (gone x.tree D) cs, k < cs.length ∧ gone x.tree D (cs.getD k 0) = true := by
    intro k hk
    unfold posOf at hk
    obtain ⟨c, hc, rfl⟩ := List.mem_map.1 hk
    rw [List.mem_filter] at hc
    have hlt := List.idxOf_lt_length_of_mem hc.1
    refine ⟨hlt, ?_⟩
    rw [List.getD_eq_getElem _ _ hlt, List.getElem_idxOf]; exact hc.2
  obtain ⟨y, y1, y2, y3⟩ := squeezeAxes_spec ts1 i (posOf (gone x.tree D) cs)
    (by
      intro k hk
      unfold Arr.order
      rw [f2, List.length_append, List.length_map]
      have := (hpos k hk).1
      omega)
    (by
      intro k hk
      obtain ⟨k1, k2⟩ := hpos k hk
      rw [f2, List.getD_append _ _ _ _ (by simpa using k1), List.getD_eq_getElem (cs.map sz') _ (by simpa using k1), List.getElem_map]
      rw [List.getD_eq_getElem cs _ k1] at k2
      exact hgone1 _ (List.getElem_mem k1) k2)
  have hall : (cs.all (fun c => st.2.contains c)) = true ↔ Gone x.tree D i := by
    rw [List.all_eq_true, gone_internal hl]
    constructor
    · intro hh c he
      have := hh c ((hedge c).2 he)
      rw [hcont c ((hedge c).2 he)] at this
      exact gone_iff.1 this
    · intro hh c hc
      rw [hcont c hc]
      exact gone_iff.2 (hh c ((hedge c).1 hc))
  refine ⟨(upd ts1 i y, if cs.all (fun c => st.2.contains c) then st.2 ++ [i] else st.2), ?_, ?_⟩
  · unfold squeezeNode
    have e : cs.zipIdx.foldlM (squeezeChild x st.2 i) st.1 = .ok ts1 := f1
    simp only [← hcs, e, hax, y1, bind, Except.bind]
  · have hts1 : ∀ j, j ≠ i → (¬ (Gone x.tree D j ∧ Edge x.tree i j)) → ts1 j = st.1 j := by
      intro j hj hn
      rw [f3 j hj, if_neg]
      rintro ⟨hjc, hjq⟩
      rw [hqg j hjc, Bool.and_eq_true] at hjq
      exact hn ⟨gone_iff.1 hjq.2, (hedge j).1 hjc⟩
    refine ⟨?_, ?_, ?_, ?_⟩
    · intro c
      simp only
      by_cases ha : Gone x.tree D i
      · rw [if_pos (hall.2 ha), List.mem_append, List.mem_singleton, hI.ind]
        constructor
        · rintro (⟨a, b, c⟩ | rfl)
          · exact ⟨a, b, by tauto⟩
          · exact ⟨hi, ha, .inr (.inr rfl)⟩
        · rintro ⟨a, b, c | c | c⟩
          · exact .inl ⟨a, b, .inl c⟩
          · exact .inl ⟨a, b, .inr c⟩
          · exact .inr c
      · rw [if_neg (fun hh => ha (hall.1 hh)), hI.ind]
        constructor
        · rintro ⟨a, b, c⟩; exact ⟨a, b, by tauto⟩
        · rintro ⟨a, b, c | c | c⟩
          · exact ⟨a, b, .inl c⟩
          · exact ⟨a, b, .inr c⟩
          · exact absurd (c ▸ b) ha
    · intro c hc hor
      have hci : c ≠ i := by rintro rfl; exact hl hc
      simp only
      rw [upd_ne _ _ hci, hts1 c hci (by
        rintro ⟨g1, g2⟩
        rcases hor with hor | hor
        · exact hor g1
        · exact hor i g2 (.inr rfl))]
      refine hI.leaf c hc ?_
      rcases hor with hor | hor
      · exact .inl hor
      · exact .inr (fun p hp hPp => hor p hp (.inl hPp))
    · intro j hj hjl hPj
      have hji : j ≠ i := fun hh => hPj (.inr hh)
      simp only
      rw [upd_ne _ _ hji, hts1 j hji (fun hh => hPj (.inl (hch j hh.2 hjl)))]
      exact hI.todo j hj hjl (fun hh => hPj (.inl hh))
    · intro j hj hjl hPj hor
      by_cases hji : j = i
      · subst hji
        simp only
        rw [upd_self, ← hcs]
        refine ⟨?_, ?_⟩
        · rw [y2, f2, hweave, dropAxes_weave _ _ _ _ _ hnd (by simp), hfk]
        · intro u e hu he
          have hwb : InBox (cs.map sz') (weave (gone x.tree D) cs [] u) :=
            inBox_weave_zero _ _ _ (fun c hc hg => by rw [hgone1 c hc hg]; omega) (by rw [hfk]; exact hu)
          have hul : u.length = (cs.filter (fun c => !gone x.tree D c)).length := by
            rw [hu.length_eq]; simp
          have hb : InBox (ts1 j).shape (weave (gone x.tree D) cs [] u ++ e) := by
            rw [f2]; exact (inBox_append hwb.length_eq).2 ⟨hwb, he⟩
          have := y3 _ hb
          rw [dropAxes_weave _ _ _ _ _ hnd hul] at this
          rw [this]
          have h4 := f4 [] _ e .nil hwb he
          simp only [List.nil_append] at h4
          rw [h4, hI.todo j hi hl hPi]
          unfold contracted
          rw [← hcs]
          exact gsum_congr _ _ _ _ _ hqg
      · have hPj' : P j := hPj.resolve_right hji
        simp only
        rw [upd_ne _ _ hji, hts1 j hji (by
          rintro ⟨g1, g2⟩
          rcases hor with hor | hor
          · exact hor g1
          · exact hor i g2 (.inr rfl))]
        refine hI.node j hj hjl hPj' ?_
        rcases hor with hor | hor
        · exact .inl hor
        · exact .inr (fun p hp hPp => hor p hp (.inl hPp))

/-! ## The tree after the loop -/

theorem psum_box [CommSemiring R] {act : Nat → Bool} {ρ dim : Nat → Nat} {V : Nat → List Nat → List Nat → R} {idx : List Nat}
    (sz : Nat → Nat) (cs : List Nat) {k k' : List Nat → R} (hd : ∀ c ∈ cs, ¬ act c = true → idx.getD (dim c) 0 < sz c)
    (ha : ∀ c ∈ cs, act c = true → sz c = ρ c) (h : ∀ t, InBox (cs.map sz) t → k t = k' t) :
    psum act ρ dim V idx cs k = psum act ρ dim V idx cs k' := by
  induction cs generalizing k k' with
  | nil => exact h [] .nil
  | cons c cs ih =>
    have ih' := fun (k k' : List Nat → R) hk => @ih k k' (fun c hc => hd c (by simp [hc])) (fun c hc => ha c (by simp [hc])) hk
    rw [psum, psum]
    by_cases hc : act c = true
    · rw [if_pos hc, if_pos hc]
      refine sum_congr rfl fun s hs => ?_
      rw [ih' _ (fun t => k' (s :: t)) (fun t ht => h _ (.cons (by rw [ha c (by simp) hc]; exact mem_range.1 hs) ht))]
    · rw [if_neg hc, if_neg hc]
      exact ih' _ _ (fun t ht => h _ (.cons (hd c (by simp) hc) ht))

/-- The kept leaves. -/
def keptLeaves (T : DTree) (ds : List Nat) : List Nat :=
  (FullTensor.setdiffRange T.dim2ind.length ds).map (fun k => T.dim2ind.getD k 0)

/-- The subscripts of all the dimensions: zero in the dimensions `ds`. -/
def expand (N : Nat) (ds idx : List Nat) : List Nat :=
  (List.range N).map (fun k => if k ∈ ds then 0 else idx.getD ((FullTensor.setdiffRange N ds).idxOf k) 0)

theorem expand_getD {N : Nat} {ds idx : List Nat} {k : Nat} (hk : k < N) :
    (expand N ds idx).getD k 0 = if k ∈ ds then 0 else idx.getD ((FullTensor.setdiffRange N ds).idxOf k) 0 := by
  unfold expand
  rw [List.getD_eq_getElem _ _ (by simpa using hk), List.getElem_map, List.getElem_range]

theorem expand_zero {N : Nat} {ds idx : List Nat} (d : Nat) (hd : d ∈ ds) : (expand N ds idx).getD d 0 = 0 := by
  by_cases hk : d < N
  · rw [expand_getD hk, if_pos hd]
  · rw [List.getD_eq_default _ _ (by unfold expand; simpa using hk)]

theorem expand_off {shape ds idx : List Nat} (h1 : ∀ d ∈ ds, shape.getD d 0 = 1) (hi : InBox shape idx) :
    expand shape.length ds (entriesOff ds idx) = idx := by
  have hl := hi.length_eq
  apply List.ext_getElem
  · unfold expand; simp [hl]
  · intro k k1 k2
    have hk : k < shape.length := by rw [← hl]; exact k2
    rw [← List.getD_eq_getElem _ 0 k1, expand_getD hk]
    by_cases hd : k ∈ ds
    · rw [if_pos hd]
      have := (inBox_iff_getD _ _).1 hi
      have := this.2 k hk
      rw [h1 k hd, List.getD_eq_getElem _ _ k2] at this
      omega
    · rw [if_neg hd]
      have hm : k ∈ FullTensor.setdiffRange idx.length ds := mem_setdiffRange.2 ⟨k2, hd⟩
      rw [FullTensor.entriesOff_eq, ← hl]
      unfold applyPerm
      have hlt := List.idxOf_lt_length_of_mem hm
      rw [List.getD_eq_getElem _ _ (by simpa using hlt), List.getElem_map, List.getElem_idxOf, List.getD_eq_getElem _ _ k2]

theorem mem_keptLeaves {T : DTree} (hV : Valid T) {ds : List Nat} {c : Nat} :
    c ∈ keptLeaves T ds ↔ c ∈ T.dim2ind ∧ dimOf T c ∉ ds := by
  unfold keptLeaves
  rw [List.mem_map]
  constructor
  · rintro ⟨k, hk, rfl⟩
    obtain ⟨k1, k2⟩ := mem_setdiffRange.1 hk
    rw [List.getD_eq_getElem _ _ k1]
    refine ⟨List.getElem_mem k1, ?_⟩
    unfold dimOf
    rw [hV.nodup.idxOf_getElem]; exact k2
  · rintro ⟨h1, h2⟩
    refine ⟨dimOf T c, mem_setdiffRange.2 ⟨dimOf_lt h1, h2⟩, ?_⟩
    unfold dimOf
    rw [List.getD_eq_getElem _ _ (List.idxOf_lt_length_of_mem h1), List.getElem_idxOf]

theorem nodup_setdiffRange (N : Nat) (ds : List Nat) : (FullTensor.setdiffRange N ds).Nodup := List.nodup_range.filter _

theorem d2i_inj {T : DTree} (hV : Valid T) {ds : List Nat} : ∀ a ∈ FullTensor.setdiffRange T.dim2ind.length ds,
    ∀ b ∈ FullTensor.setdiffRange T.dim2ind.length ds, T.dim2ind.getD a 0 = T.dim2ind.getD b 0 → a = b := by
  intro a ha b hb hab
  have ha' := (mem_setdiffRange.1 ha).1
  have hb' := (mem_setdiffRange.1 hb).1
  rw [List.getD_eq_getElem _ _ ha', List.getD_eq_getElem _ _ hb'] at hab
  exact (hV.nodup.getElem_inj_iff).1 hab

theorem nodup_keptLeaves {T : DTree} (hV : Valid T) (ds : List Nat) : (keptLeaves T ds).Nodup :=
  (List.nodup_map_iff_inj_on (nodup_setdiffRange _ _)).2 (d2i_inj hV)

theorem idxOf_keptLeaves {T : DTree} (hV : Valid T) {ds : List Nat} {c : Nat} (hc : c ∈ T.dim2ind) (hd : dimOf T c ∉ ds) :
    (keptLeaves T ds).idxOf c = (FullTensor.setdiffRange T.dim2ind.length ds).idxOf (dimOf T c) := by
  have := idxOf_map_inj (fun k => T.dim2ind.getD k 0) (nodup_setdiffRange T.dim2ind.length ds) (d2i_inj hV)
    (mem_setdiffRange.2 ⟨dimOf_lt hc, hd⟩)
  have e : T.dim2ind.getD (dimOf T c) 0 = c := by
    unfold dimOf
    rw [List.getD_eq_getElem _ _ (List.idxOf_lt_length_of_mem hc), List.getElem_idxOf]
  simp only [e] at this
  exact this

theorem squeeze_loop [CommSemiring R] {x : TBT R} (h : WF x) {ds : List Nat} (hD : ∀ d ∈ ds, x.shape.getD d 0 = 1)
    {V : Nat → List Nat → List Nat → R} (hv : IsValue x V) {lev : Nat → Nat} (hlev : ∀ j k, HasLevel x.tree j k → lev j = k)
    {ind : List Nat} (hind : ∀ c, c ∈ ind ↔ c ∈ x.tree.dim2ind ∧ dimOf x.tree c ∈ ds) :
    ∃ st, (List.range (x.tree.maxLevel lev + 1)).reverse.foldlM
        (fun st l => (internalAt x.tree lev l).foldlM (squeezeNode x) st) (x.tensors, ind) = .ok st ∧
      SInv x ds V st (fun i => IsNode x.tree i ∧ i ∉ x.tree.dim2ind) := by
  have hV := h.valid
  have hP0 : (fun i => IsNode x.tree i ∧ i ∉ x.tree.dim2ind ∧ x.tree.maxLevel lev + 1 ≤ lev i) = fun _ => False := by
    funext i
    apply propext
    constructor
    · rintro ⟨a, _, b⟩
      have := lev_le_maxLevel (T := x.tree) lev a
      omega
    · exact False.elim
  exact bottomUp hV hlev (squeezeNode x) (fun i => i ∉ x.tree.dim2ind) (internalAt x.tree lev)
    (by
      intro l i
      rw [mem_internalAt]
      have := isLeaf_mem x.tree i
      rw [← Bool.not_eq_true]
      tauto)
    (nodup_internalAt x.tree lev)
    (fun st P => SInv x ds V st P)
    (by
      intro st P i hI hi hQ hPi hch _
      exact hI.step h hD hv hi hQ hPi hch)
    (x.tree.maxLevel lev + 1) (x.tensors, ind)
    (by
      rw [hP0]
      refine ⟨?_, fun _ _ _ => rfl, fun _ _ _ _ => rfl, fun _ _ _ hf => hf.elim⟩
      intro c
      simp only
      rw [hind]
      constructor
      · rintro ⟨a, b⟩; exact ⟨((hV.leaves c).1 a).1, (gone_leaf hV a).2 b, .inl a⟩
      · rintro ⟨_, b, c' | c'⟩
        · exact ⟨c', (gone_leaf hV c').1 b⟩
        · exact c'.elim)

/-- The kept nodes form a tree, with the expected shapes and values. -/
theorem squeeze_part [CommSemiring R] {x : TBT R} (h : WF x) {ds : List Nat}
    {V : Nat → List Nat → List Nat → R} (hv : IsValue x V) {st : (Nat → Arr R) × List Nat}
    (hI : SInv x ds V st (fun i => IsNode x.tree i ∧ i ∉ x.tree.dim2ind)) {r : Nat} (hroot : IsRoot x.tree r)
    (hne : FullTensor.setdiffRange x.tree.dim2ind.length ds ≠ []) {K : List Nat}
    (hK : K = ((List.range x.tree.n).map (· + 1)).filter (fun i => !st.2.contains i)) :
    Part ⟨⟨keptLeaves x.tree ds, x.tree.n, x.tree.adj⟩, st.1⟩ K r x.active x.lastDim x.leafSize (rankShape x r) ∧
    PVal ⟨⟨keptLeaves x.tree ds, x.tree.n, x.tree.adj⟩, st.1⟩ K r x.active x.lastDim (rankShape x r) (entriesOff ds x.shape)
      (fun i idx e => V i (expand x.tree.dim2ind.length ds idx) e) ∧
    (∀ i, i ∈ K ↔ IsNode x.tree i ∧ ¬ Gone x.tree ds i) ∧ r ∉ keptLeaves x.tree ds := by
  have hV := h.valid
  have hs := h.shaped hroot
  have hp := h.part hroot
  have hrl := h.root_internal hroot
  have hKm : ∀ i, i ∈ K ↔ IsNode x.tree i ∧ ¬ Gone x.tree ds i := by
    intro i
    rw [hK, List.mem_filter]
    have e1 : i ∈ (List.range x.tree.n).map (· + 1) ↔ IsNode x.tree i := mem_nodes i
    have e2 : (!st.2.contains i) = true ↔ i ∉ st.2 := by simp
    rw [e1, e2, hI.ind]
    constructor
    · rintro ⟨a, b⟩
      refine ⟨a, fun hg => b ⟨a, hg, ?_⟩⟩
      by_cases hl : i ∈ x.tree.dim2ind
      · exact .inl hl
      · exact .inr ⟨a, hl⟩
    · rintro ⟨a, b⟩; exact ⟨a, fun hh => b hh.2.1⟩
  have hup : ∀ a b, AncSelf x.tree a b → ¬ Gone x.tree ds b → ¬ Gone x.tree ds a :=
    fun a b hab hb ha => hb (fun c hc hbc => ha c hc (hab.trans hbc))
  have hrK : r ∈ K := by
    rw [hKm]
    refine ⟨hroot.1, ?_⟩
    obtain ⟨k, hk⟩ := List.exists_mem_of_ne_nil _ hne
    have hc : x.tree.dim2ind.getD k 0 ∈ keptLeaves x.tree ds := List.mem_map.2 ⟨k, hk, rfl⟩
    obtain ⟨c1, c2⟩ := (mem_keptLeaves hV).1 hc
    intro hg
    obtain ⟨r0, hr0, hall⟩ := hV.rooted
    obtain rfl := root_unique hV hr0 hroot
    exact c2 (hg _ c1 (hall _ ((hV.leaves _).1 c1).1))
  have hkept : ∀ c ∈ keptLeaves x.tree ds, c ∈ x.tree.dim2ind ∧ ¬ Gone x.tree ds c := by
    intro c hc
    obtain ⟨c1, c2⟩ := (mem_keptLeaves hV).1 hc
    exact ⟨c1, fun hg => c2 ((gone_leaf hV c1).1 hg)⟩
  have hint : ∀ i ∈ K, i ∉ keptLeaves x.tree ds → i ∉ x.tree.dim2ind := by
    intro i hi hn hl
    exact ((hKm i).1 hi).2 ((gone_leaf hV hl).2 (by
      by_contra hd
      exact hn ((mem_keptLeaves hV).2 ⟨hl, hd⟩)))
  have hrk : r ∉ keptLeaves x.tree ds := fun hh => hrl (hkept r hh).1
  have hkids : ∀ i ∈ K, kids ⟨keptLeaves x.tree ds, x.tree.n, x.tree.adj⟩ K i =
      (x.tree.children i).filter (fun c => !gone x.tree ds c) := by
    intro i hi
    rw [← kids_nodes]
    unfold kids
    have : K = x.tree.nodes.filter (fun c => !gone x.tree ds c) := by
      rw [hK]
      apply List.filter_congr
      intro j hj
      have hj' : IsNode x.tree j := (mem_nodes j).1 hj
      have a : j ∈ K ↔ IsNode x.tree j ∧ ¬ Gone x.tree ds j := hKm j
      rw [hK, List.mem_filter] at a
      rw [Bool.eq_iff_iff]
      have b : (!gone x.tree ds j) = true ↔ ¬ Gone x.tree ds j := by
        rw [← gone_iff]; simp
      rw [b]
      tauto
    rw [this, List.filter_filter, List.filter_filter]
    apply List.filter_congr
    intro j _
    rw [Bool.and_comm]
  have hnd' : ∀ i ∈ K, i ∉ keptLeaves x.tree ds → (st.1 i).shape =
      ((x.tree.children i).filter (fun c => !gone x.tree ds c)).map (childSize x) ++ rankShape x i ∧
      ∀ u e, InBox (((x.tree.children i).filter (fun c => !gone x.tree ds c)).map (childSize x)) u → InBox (rankShape x i) e →
        (st.1 i).get (u ++ e) = contracted x ds V i u e := by
    intro i hi hn
    obtain ⟨i1, i2⟩ := (hKm i).1 hi
    exact hI.node i i1 (hint i hi hn) ⟨i1, hint i hi hn⟩ (.inl i2)
  have hrank : ∀ i ∈ K, i ∉ keptLeaves x.tree ds → rankShape x i = if i = r then rankShape x r else [x.lastDim i] := by
    intro i hi hn
    by_cases hir : i = r
    · rw [if_pos hir, hir]
    · rw [if_neg hir]
      exact hs.rankShape_node ((hKm i).1 hi).1 (hint i hi hn) (fun hh => hir (root_unique hV hh hroot))
  refine ⟨⟨?_, fun i hi => ((hKm i).1 hi).1, hrK, fun i _ => hroot.2 i, fun i _ i' _ j _ => hV.unique_parent i i' j, ?_,
    nodup_keptLeaves hV ds, ?_, ?_, ?_, hp.rootPos, hp.rootLen, hp.rootAct, ?_, ?_, ?_, ?_⟩, ⟨?_, ?_⟩, hKm, hrk⟩
  · rw [hK]; exact hp.sorted.filter _
  · intro j hj
    obtain ⟨r0, hr0, hall⟩ := hV.rooted
    obtain rfl := root_unique hV hr0 hroot
    have hA := hall j ((hKm j).1 hj).1
    have key : ∀ j, AncSelf x.tree r0 j → j ∈ K → Relation.ReflTransGen (fun a b => a ∈ K ∧ b ∈ K ∧ Edge x.tree a b) r0 j := by
      intro j hA
      induction hA with
      | refl => intro _; exact .refl
      | tail hab hbc ih =>
        intro hj
        have hb := (hKm _).2 ⟨hbc.1, hup _ _ (Relation.ReflTransGen.single hbc) ((hKm _).1 hj).2⟩
        exact (ih hb).tail ⟨hb, hj, hbc⟩
    exact key j hA hj
  · intro c
    rw [hKm]
    constructor
    · intro hc
      obtain ⟨c1, c2⟩ := hkept c hc
      exact ⟨⟨((hV.leaves c).1 c1).1, c2⟩, fun j _ => ((hV.leaves c).1 c1).2 j⟩
    · rintro ⟨⟨c1, c2⟩, c3⟩
      have hcl : c ∈ x.tree.dim2ind := by
        by_contra hcl
        apply c2
        rw [gone_internal hcl]
        intro d hd
        by_contra hg
        exact c3 d ((hKm d).2 ⟨hd.2.1, hg⟩) hd
      exact (mem_keptLeaves hV).2 ⟨hcl, fun hd => c2 ((gone_leaf hV hcl).2 hd)⟩
  · intro i hi hir ha
    exact hp.rho i ((mem_nodes i).2 ((hKm i).1 hi).1) hir ha
  · intro c hc
    exact hp.nu c (hkept c hc).1
  · intro c hc ha
    obtain ⟨c1, c2⟩ := hkept c hc
    show (st.1 c).shape = _
    rw [hI.leaf c c1 (.inl c2)]
    exact hp.leaf c c1 ha
  · intro c hc ha
    obtain ⟨c1, c2⟩ := hkept c hc
    show (st.1 c).shape.prod = _
    rw [hI.leaf c c1 (.inl c2)]
    exact hp.off c c1 ha
  · intro i hi hn
    exact hp.internal i ((mem_nodes i).2 ((hKm i).1 hi).1) (hint i hi hn)
  · intro i hi hn
    show (st.1 i).shape = _
    rw [(hnd' i hi hn).1, hkids i hi, hrank i hi hn]
    rfl
  · intro c hc ha idx e hidx he
    obtain ⟨c1, c2⟩ := hkept c hc
    obtain ⟨_, c3⟩ := (mem_keptLeaves hV).1 hc
    show V c (expand x.tree.dim2ind.length ds idx) e = (st.1 c).get (idx.getD ((keptLeaves x.tree ds).idxOf c) 0 :: e)
    rw [hI.leaf c c1 (.inl c2), hv.leaf c c1 ha, expand_getD (dimOf_lt c1), if_neg c3, idxOf_keptLeaves hV c1 c3]
  · intro i hi hn idx e hidx he
    have hi1 := ((hKm i).1 hi).1
    have hi2 := hint i hi hn
    show V i (expand x.tree.dim2ind.length ds idx) e = psum x.active x.lastDim (fun c => (keptLeaves x.tree ds).idxOf c)
      (fun i idx e => V i (expand x.tree.dim2ind.length ds idx) e) idx
      (kids ⟨keptLeaves x.tree ds, x.tree.n, x.tree.adj⟩ K i) (fun t => (st.1 i).get (t ++ e))
    rw [value_contracted x h ds hv hi1 hi2 (fun d hd => expand_zero d hd), hkids i hi]
    have hcs : ∀ c ∈ (x.tree.children i).filter (fun c => !gone x.tree ds c), Edge x.tree i c ∧ ¬ Gone x.tree ds c := by
      intro c hc
      rw [List.mem_filter] at hc
      refine ⟨(mem_children i c hi1).1 hc.1, ?_⟩
      rw [← gone_iff]; simpa using hc.2
    have hdim : ∀ c ∈ (x.tree.children i).filter (fun c => !gone x.tree ds c), ¬ x.active c = true →
        (expand x.tree.dim2ind.length ds idx).getD (dimOf x.tree c) 0 = idx.getD ((keptLeaves x.tree ds).idxOf c) 0 ∧
        idx.getD ((keptLeaves x.tree ds).idxOf c) 0 < childSize x c := by
      intro c hc ha
      obtain ⟨he', hg⟩ := hcs c hc
      have hcl := h.inactive_leaf he'.2.1 ha
      have hd : dimOf x.tree c ∉ ds := fun hd => hg ((gone_leaf hV hcl).2 hd)
      refine ⟨by rw [expand_getD (dimOf_lt hcl), if_neg hd, idxOf_keptLeaves hV hcl hd], ?_⟩
      unfold childSize
      rw [if_neg ha, ← shape_getD hcl, idxOf_keptLeaves hV hcl hd]
      have hm : dimOf x.tree c ∈ FullTensor.setdiffRange x.tree.dim2ind.length ds := mem_setdiffRange.2 ⟨dimOf_lt hcl, hd⟩
      have hlt := List.idxOf_lt_length_of_mem hm
      have hsl : x.shape.length = x.tree.dim2ind.length := by unfold TBT.shape; simp
      have e1 : (entriesOff ds x.shape).length = (FullTensor.setdiffRange x.tree.dim2ind.length ds).length := by
        rw [FullTensor.entriesOff_eq, hsl]; unfold applyPerm; simp
      have := ((inBox_iff_getD _ _).1 hidx).2 ((FullTensor.setdiffRange x.tree.dim2ind.length ds).idxOf (dimOf x.tree c)) (by rw [e1]; exact hlt)
      have e2 : (entriesOff ds x.shape).getD ((FullTensor.setdiffRange x.tree.dim2ind.length ds).idxOf (dimOf x.tree c)) 0 =
          x.shape.getD (dimOf x.tree c) 0 := by
        rw [FullTensor.entriesOff_eq, hsl]
        unfold applyPerm
        rw [List.getD_eq_getElem _ _ (by simpa using hlt), List.getElem_map, List.getElem_idxOf]
      rw [e2] at this
      exact this
    rw [psum_congr (act' := x.active) (ρ' := x.lastDim) (dim' := fun c => (keptLeaves x.tree ds).idxOf c)
      (V' := fun i idx e => V i (expand x.tree.dim2ind.length ds idx) e) (idx' := idx) _ _ (fun _ _ => rfl)
      (fun _ _ _ => ⟨rfl, fun _ _ => rfl⟩) (fun c hc ha => (hdim c hc ha).1)]
    refine psum_box (childSize x) _ (fun c hc ha => (hdim c hc ha).2) (fun c _ ha => by unfold childSize; rw [if_pos ha]) ?_
    intro u hu
    rw [(hnd' i hi hn).2 u e hu (by rw [hrank i hi hn]; exact he)]

end Verif.TreeBased
