import Verif.Lemmas.DmrgBelow
import Verif.Spec.ParamGradientDmrg

/-!
# Gradient of a function in tree-based format with respect to a merged node
-/

namespace Verif.TreeBased

open Verif.Arr Verif.DimTree Finset

variable {R : Type}

theorem weave_insert (cs : List Nat) (hn : cs.Nodup) (c i : Nat) (t : List Nat) (hc : c ∈ cs)
    (ht : t.length = (cs.filter (fun c' => c' != c)).length) :
    weave (fun c' => c' != c) cs t [i] = t.insertIdx (cs.idxOf c) i := by
  induction cs generalizing t with
  | nil => simp at hc
  | cons a cs ih =>
    rw [List.nodup_cons] at hn
    by_cases hac : a = c
    · subst hac
      have hall : ∀ c' ∈ cs, (c' != a) = true := by
        intro c' hc'
        simpa using fun h : c' = a => hn.1 (h ▸ hc')
      have hf : (a :: cs).filter (fun c' => c' != a) = cs := by
        rw [List.filter_cons]
        simp only [bne_self_eq_false, Bool.false_eq_true, if_false]
        exact List.filter_eq_self.2 hall
      rw [hf] at ht
      rw [weave, if_neg (by simp), List.idxOf_cons_self, List.headD_cons, weave_true _ cs t _ hall ht]
      rfl
    · have hf : (a :: cs).filter (fun c' => c' != c) = a :: cs.filter (fun c' => c' != c) := by
        rw [List.filter_cons, if_pos (by simpa using hac)]
      rw [hf] at ht
      cases t with
      | nil => simp at ht
      | cons b t =>
        rw [weave, if_pos (by simpa using hac), List.idxOf_cons_ne _ hac, List.headD_cons, List.tail_cons,
          ih hn.2 t ((List.mem_cons.1 hc).resolve_left (fun h => hac h.symm)) (by simpa using ht)]
        rfl

/-- `SamePair`, for well-formed tensors with all nodes active. -/
structure PairOk (x x' : TBT R) (α γ : Nat) : Prop extends SamePair x x' α γ where
  wf : WF x'
  act : AllActive x'

theorem PairOk.lastOff {x x' : TBT R} {α γ : Nat} (h : PairOk x x' α γ) {j : Nat} (h1 : j ≠ α) (h2 : j ≠ γ) :
    x'.lastDim j = x.lastDim j := by
  unfold TBT.lastDim; rw [h.off j h1 h2]

/-- If `γ` is not the root, its subtree is the only change. -/
theorem PairOk.sub {x x' : TBT R} (hx : WF x) {α γ : Nat} (h : PairOk x x' α γ) (he : Edge x.tree γ α) (hγ : ¬ IsRoot x.tree γ) :
    SameSub x x' γ := by
  refine ⟨h.tree, fun j hj => h.off j (fun e => hj (e ▸ .single he)) (fun e => hj (e ▸ .refl)), ?_⟩
  have e1 : rankShape x γ = [x.lastDim γ] := by
    have := hx.rs_eq he.1 hγ; rwa [rs_node (edge_internal hx.valid he)] at this
  have e2 : rankShape x' γ = [x'.lastDim γ] := by
    have := h.wf.rs_eq (i := γ) (by rw [h.tree]; exact he.1) (by rw [h.tree]; exact hγ)
    rwa [rs_node (by rw [h.tree]; exact edge_internal hx.valid he)] at this
  have := h.rank
  rw [e1, e2] at this
  simpa using this

theorem PairOk.leaf {x x' : TBT R} (hx : WF x) (ha : AllActive x) {α γ : Nat} (h : PairOk x x' α γ) (he : Edge x.tree γ α) {c : Nat}
    (hc : c ∈ x.tree.dim2ind) : x'.leafSize c = x.leafSize c := by
  have hcn := leaf_isNode hx.valid hc
  by_cases h1 : c = α
  · subst h1
    have q1 : x.leafSize c = (ownSizes x c).headD 0 := by
      obtain ⟨m, q, hsh⟩ := hx.leaf c hc (ha c hcn)
      unfold TBT.leafSize ownSizes
      rw [if_pos (ha c hcn), hsh]; rfl
    have hc' : c ∈ x'.tree.dim2ind := by rw [h.tree]; exact hc
    have ha' := h.act c (by rw [h.tree]; exact hcn)
    have q2 : x'.leafSize c = (ownSizes x' c).headD 0 := by
      obtain ⟨m, q, hsh⟩ := h.wf.leaf c hc' ha'
      unfold TBT.leafSize ownSizes
      rw [if_pos ha', hsh]; rfl
    rw [q1, q2, h.own]
  · have h2 : c ≠ γ := fun e => edge_internal hx.valid he (e ▸ hc)
    exact leafSize_active (ha c hcn) (h.off c h1 h2)

theorem PairOk.shapeEq {x x' : TBT R} (hx : WF x) (ha : AllActive x) {α γ : Nat} (h : PairOk x x' α γ) (he : Edge x.tree γ α) :
    x'.shape = x.shape := by
  unfold TBT.shape
  rw [h.tree]
  exact List.map_congr_left (fun c hc => h.leaf hx ha he hc)

theorem PairOk.rankRoot {x x' : TBT R} {α γ r : Nat} (h : PairOk x x' α γ) (he : Edge x.tree γ α) (hr : IsRoot x.tree r) :
    rankShape x' r = rankShape x r := by
  by_cases h2 : r = γ
  · rw [h2, h.rank]
  · have h1 : r ≠ α := fun e => hr.2 γ (e ▸ he)
    unfold rankShape
    rw [h.off r h1 h2, h.tree]

/-- Off the path from the root to `α` the values do not depend on the tensors of `α` and of its parent. -/
theorem eval_pair [CommSemiring R] {x x' : TBT R} (hx : WF x) (ha : AllActive x) {α γ : Nat} (h : PairOk x x' α γ) (heγ : Edge x.tree γ α) {w : Nat → Nat → R}
    {B B' : Nat → List Nat → R} (hB : IsEval x w B) (hB' : IsEval x' w B') :
    ∀ i, IsNode x.tree i → ¬ AncSelf x.tree i α → ∀ s, B' i [s] = B i [s] := by
  refine node_induction hx.valid _ ?_
  intro i hi ih hp s
  have hne : i ≠ α := fun e => hp (e ▸ .refl)
  have hne' : i ≠ γ := fun e => hp (e ▸ .single heγ)
  by_cases hl : i ∈ x.tree.dim2ind
  · rw [hB.leaf i hl s, hB'.leaf i (by rw [h.tree]; exact hl) s, leafSize_active (ha i hi) (h.off i hne hne'), h.tree, h.off i hne hne']
  · rw [hB.node i hi hl [s], hB'.node i (by rw [h.tree]; exact hi) (by rw [h.tree]; exact hl) [s], h.tree, h.off i hne hne']
    have : (x.tree.children i).map x'.lastDim = (x.tree.children i).map x.lastDim := List.map_congr_left (fun c hc => by
      have he := (mem_children i c hi).1 hc
      refine h.lastOff ?_ ?_
      · rintro rfl
        exact hne' ((edge_parent hx.valid he).symm.trans (edge_parent hx.valid heγ))
      · rintro rfl
        exact hp (.head he (.single heγ)))
    rw [this]
    apply sumBox_congr
    intro t ht
    congr 2
    apply List.ext_getElem (by simp)
    intro m h1 h2
    rw [List.getElem_zipWith, List.getElem_zipWith]
    have hm : m < (x.tree.children i).length := by simp at h1; omega
    have he := (mem_children i _ hi).1 (List.getElem_mem hm)
    exact ih _ he (fun hc' => hp (.head he hc')) _

section gradient

variable [CommSemiring R] (x : TBT R) (hx : WF x) (ha : AllActive x) (r : Nat) (hroot : IsRoot x.tree r) (H : List (Arr R)) (n : Nat)
  (hn : 0 < n) (hH : ∀ d, d < x.order → (H.getD d ⟨[], fun _ => 0⟩).shape = [n, x.shape.getD d 0])
  (B : Nat → Nat → List Nat → R) (hB : ∀ k, IsEval x (rowW H k) (B k)) (α γ : Nat)

include hx ha in
/-- The sizes of the axes of `α`. -/
theorem ownSizes_spec (heγ : Edge x.tree γ α) : (x.tensors α).shape = ownSizes x α ++ [x.lastDim α] ∧
    (α ∈ x.tree.dim2ind → ownSizes x α = [x.leafSize α]) ∧
    (α ∉ x.tree.dim2ind → ownSizes x α = (x.tree.children α).map x.lastDim) := by
  have hnr := WF.child_not_root heγ
  by_cases hl : α ∈ x.tree.dim2ind
  · obtain ⟨m, q, hsh⟩ := hx.leaf α hl (ha α heγ.2.1)
    have d1 : x.lastDim α = q := lastDim_of_shape (s := [m]) hsh
    have l1 : x.leafSize α = m := by unfold TBT.leafSize; rw [if_pos (ha α heγ.2.1), hsh]; rfl
    have ho : ownSizes x α = [m] := by unfold ownSizes; rw [hsh]; rfl
    exact ⟨by rw [ho, d1, hsh]; rfl, fun _ => by rw [ho, l1], fun h => absurd hl h⟩
  · have e3 : rankShape x α = [x.lastDim α] := by
      have := hx.rs_eq heγ.2.1 hnr; rwa [rs_node hl] at this
    have hsh : (x.tensors α).shape = (x.tree.children α).map x.lastDim ++ [x.lastDim α] := by
      rw [(hx.node α heγ.2.1 hl).2.1, childSizes_active ha heγ.2.1, e3]
    have ho : ownSizes x α = (x.tree.children α).map x.lastDim := by
      unfold ownSizes; rw [hsh, List.dropLast_concat]
    exact ⟨by rw [ho]; exact hsh, fun h => absurd h hl, fun _ => ho⟩

/-- The first factor: it gives the value of `α` from its tensor. -/
def FirstOk (x : TBT R) (H : List (Arr R)) (n α γ : Nat) (ga : Arr R) : Prop :=
  ga.shape = n :: ownSizes x α ∧ ∀ x', PairOk x x' α γ → ∀ k, k < n → ∀ B', IsEval x' (rowW H k) B' → ∀ i,
    B' α [i] = sumBox (ownSizes x α) (fun s => ga.get (k :: s) * (x'.tensors α).get (s ++ [i]))

/-- The second factor: it gives the value of the root from the value of `α` and the tensor of its parent. -/
def SecondOk (x : TBT R) (r : Nat) (H : List (Arr R)) (n α γ : Nat) (gg : Arr R) : Prop :=
  gg.shape = n :: (siblingSizes x α γ ++ (if γ = r then [] else x.lastDim γ :: rankShape x r)) ∧
    ∀ x', PairOk x x' α γ → ∀ k, k < n → ∀ B', IsEval x' (rowW H k) B' → ∀ e, InBox (rankShape x r) e →
      B' r e = sumBox (siblingSizes x α γ) (fun t => if γ = r then
          gg.get (k :: t) * ∑ i ∈ range (x'.lastDim α),
            B' α [i] * (x'.tensors γ).get (t.insertIdx ((x.tree.children γ).idxOf α) i ++ e)
        else ∑ j ∈ range (x.lastDim γ), gg.get (k :: (t ++ j :: e)) * ∑ i ∈ range (x'.lastDim α),
            B' α [i] * (x'.tensors γ).get (t.insertIdx ((x.tree.children γ).idxOf α) i ++ [j]))

include hx ha in
/-- The value of `γ` with the sums on `α` inside. -/
theorem split_pair (heγ : Edge x.tree γ α) {x' : TBT R} (hx' : PairOk x x' α γ) {w : Nat → Nat → R} {B B' : Nat → List Nat → R}
    (hB : IsEval x w B) (hB' : IsEval x' w B') (e : List Nat) :
    B' γ e = sumBox (siblingSizes x α γ) (fun t =>
      (List.zipWith (fun c j => B c [j]) ((x.tree.children γ).filter (fun c' => c' != α)) t).prod * ∑ i ∈ range (x'.lastDim α),
        B' α [i] * (x'.tensors γ).get (t.insertIdx ((x.tree.children γ).idxOf α) i ++ e)) := by
  have hl := edge_internal hx.valid heγ
  have hmc := (mem_children γ α heγ.1).2 heγ
  rw [eval_split hB' (p := γ) (c := α) (by rw [hx'.tree]; exact heγ.1) (by rw [hx'.tree]; exact hl) (by rw [hx'.tree]; exact hmc) e,
    hx'.tree]
  have hld : ((x.tree.children γ).filter (fun c' => c' != α)).map x'.lastDim = siblingSizes x α γ :=
    List.map_congr_left (fun c hc => by
      obtain ⟨h1, h2⟩ := List.mem_filter.1 hc
      have he' := (mem_children γ c heγ.1).1 h1
      exact hx'.lastOff (by simpa using h2) (by
        rintro rfl
        exact Anc.irrefl hx.valid c (.single he')))
  rw [hld]
  have : ∀ i ∈ range (x'.lastDim α), sumBox (siblingSizes x α γ) (fun s =>
      (List.zipWith (fun c j => B' c [j]) ((x.tree.children γ).filter (fun c' => c' != α)) s).prod *
        (x'.tensors γ).get (weave (fun c' => c' != α) (x.tree.children γ) s [i] ++ e)) * B' α [i] =
      sumBox (siblingSizes x α γ) (fun t =>
        (List.zipWith (fun c j => B c [j]) ((x.tree.children γ).filter (fun c' => c' != α)) t).prod *
        (B' α [i] * (x'.tensors γ).get (t.insertIdx ((x.tree.children γ).idxOf α) i ++ e))) := by
    intro i _
    rw [← sumBox_mul_right]
    apply sumBox_congr
    intro t ht
    rw [weave_insert _ (nodup_children γ) α i t hmc (by have := ht.length_eq; unfold siblingSizes at this; simpa using this)]
    have hz : List.zipWith (fun c j => B' c [j]) ((x.tree.children γ).filter (fun c' => c' != α)) t =
        List.zipWith (fun c j => B c [j]) ((x.tree.children γ).filter (fun c' => c' != α)) t := by
      apply zipWith_congr_inBox _ x.lastDim _ _ t ht
      intro c hc j _
      obtain ⟨h1, h2⟩ := List.mem_filter.1 hc
      have he' := (mem_children γ c heγ.1).1 h1
      exact eval_pair hx ha hx' heγ hB hB' c he'.2.1 (path_off hx heγ .refl he' (by simpa using h2)) j
    rw [hz]
    ring
  rw [sum_congr rfl this, sum_sumBox_comm]
  apply sumBox_congr
  intro t _
  rw [mul_sum]

include hx ha hn hB in
theorem childFactor_eq {z : TBT R} (hz : LeafProducts x n B α z) {p : Nat} (hp : IsNode x.tree p) (q : Nat → Bool) (ts : Nat → Arr R)
    (ones : Arr R) (mat : Nat → Arr R) : childFactor z ts ones mat ((x.tree.children p).filter q) =
      outerChain (((x.tree.children p).filter q).map ts) := by
  have hact : ∀ c ∈ (x.tree.children p).filter q, z.active c = true := fun c hc =>
    hz.active hx ha hn ((mem_children p c hp).1 (List.mem_filter.1 hc).1).2.1
  have f1 : ((x.tree.children p).filter q).filter z.active = (x.tree.children p).filter q := List.filter_eq_self.2 hact
  have f2 : ((x.tree.children p).filter q).filter (fun c => !z.active c) = [] := by
    rw [List.filter_eq_nil_iff]
    intro c hc
    simp [hact c hc]
  unfold childFactor
  simp only [f1, f2, List.isEmpty_nil, if_true]

include hx ha hroot hn hH hB in
/-- The two factors of the gradient and their product, before the permutations. -/
theorem paramGradEvalDiagDmrg_ok (hu : NoUnary x.tree) (heγ : Edge x.tree γ α) (hr : x.tree.root = .ok r) {z : TBT R}
    (hz : LeafProducts x n B α z) :
    ∃ ga gg, paramGradEvalDiagDmrg z α H = .ok (FullTensor.tensordotEvalDiag ga gg [] [] [0] [0], ga, gg) ∧
      FirstOk x H n α γ ga ∧ SecondOk x r H n α γ gg := by
  have hα := heγ.2.1
  have hαr : α ≠ r := fun h => hroot.2 γ (h ▸ heγ)
  have hl := edge_internal hx.valid heγ
  have hmc := (mem_children γ α heγ.1).2 heγ
  have hzV : Valid z.tree := by rw [hz.tree]; exact hx.valid
  have hzr : z.tree.root = .ok r := by rw [hz.tree]; exact hr
  have hzroot : IsRoot z.tree r := by rw [hz.tree]; exact hroot
  have hze : Edge z.tree γ α := by rw [hz.tree]; exact heγ
  obtain ⟨ts, t1, t2, t3⟩ := below_keep hx ha r hroot H hn hB hz hα hr
  obtain ⟨s1, s2, s3⟩ := ownSizes_spec x hx ha α γ heγ
  -- the siblings
  have hsib : ∀ c ∈ (x.tree.children γ).filter (fun c' => c' != α), BelowOk x n B ts c := by
    intro c hc
    obtain ⟨h1, h2⟩ := List.mem_filter.1 hc
    have he' := (mem_children γ c heγ.1).1 h1
    exact t2 c he'.2.1 (WF.child_not_root he') (.inr (path_off hx heγ .refl he' (by simpa using h2)))
  have hne := filter_bne_ne_nil (nodup_children (T := x.tree) γ) (hu γ heγ.1 hl) α
  obtain ⟨o1, o2⟩ := outer_children _ hne x.lastDim ts n (fun c hc => (hsib c hc).1)
  -- the arrays below and above the parent
  have hbelow : ∃ us w, evalDiagBelowE z γ [α] = .ok us ∧ evalDiagAbove z us γ = .ok w ∧ w.shape.getD 0 0 = n ∧
      (∀ c ∈ (x.tree.children γ).filter (fun c' => c' != α), us c = ts c) ∧ (γ ≠ r → AboveOk x r H n γ w γ) := by
    by_cases hγ : γ = r
    · subst hγ
      obtain ⟨g, g1, g2, -⟩ := siblings_ok hx ha H hB (hz.internalOk hx ha hn) hu (ts := ts) (fun c h1 h2 h3 _ => t2 c h1 h2 (.inr h3))
        heγ .refl
      have hb : belowNode z γ [α] ts γ = .ok (upd ts γ g) := by
        have hf : (x.tree.children γ).filter (fun c => !([α] : List Nat).contains c) =
            (x.tree.children γ).filter (fun c' => c' != α) := by
          apply List.filter_congr
          intro c _
          rw [Bool.eq_iff_iff]
          simp
        have hact : ∀ c ∈ (x.tree.children γ).filter (fun c' => c' != α), z.active c = true := fun c hc =>
          hz.active hx ha hn ((mem_children γ c heγ.1).1 (List.mem_filter.1 hc).1).2.1
        have f1 : ((x.tree.children γ).filter (fun c' => c' != α)).filter z.active = (x.tree.children γ).filter (fun c' => c' != α) :=
          List.filter_eq_self.2 hact
        have f2 : ((x.tree.children γ).filter (fun c' => c' != α)).filter (fun c => !z.active c) = [] := by
          rw [List.filter_eq_nil_iff]
          intro c hc
          simp [hact c hc]
        have hempty : ((x.tree.children γ).filter (fun c' => c' != α)).isEmpty = false := by
          rw [List.isEmpty_eq_false_iff]; exact hne
        have hkeep : ts γ = z.tensors γ := by rw [t3 hαr γ (.single heγ), hz.off γ (.inl hl)]
        unfold aboveSiblings at g1
        simp only [hz.tree, edge_parent hx.valid heγ, f1, f2, hempty, Bool.false_eq_true, if_false, List.isEmpty_nil, if_true] at g1
        unfold belowNode belowArr
        simp only [hz.tree, hf, f1, f2, hempty, hkeep, Bool.false_eq_true, if_false, List.isEmpty_nil, Bool.not_true, Bool.false_and,
          g1, bind, Except.bind]
      have hE := evalDiagBelowE_root z hzV hzr hzroot hze (hz.active hx ha hn heγ.1) t1
      rw [hb] at hE
      obtain ⟨lev, hlv, hlev⟩ := level_ok hx.valid
      obtain ⟨asc, hasc, -, -, -, hasc'⟩ := ascendants_spec hx.valid γ hroot.1
      have hnil : ∀ l : Nat, (x.tree.nodesWithLevel lev (l + 1)).filter (fun i => z.active i && (γ :: asc).contains i) = [] := by
        intro l
        rw [List.filter_eq_nil_iff]
        intro i hi h
        rw [Bool.and_eq_true, List.contains_iff_mem, List.mem_cons, hasc'] at h
        rcases h.2 with rfl | h'
        · rw [mem_nodesWithLevel] at hi
          have := hlev i 0 (.root hroot)
          omega
        · obtain ⟨b, _, h3⟩ := Relation.TransGen.tail'_iff.1 h'
          exact hroot.2 b h3
      refine ⟨_, ⟨((upd ts γ g) γ).shape, fun _ => (1 : R)⟩, hE, ?_, by simp [upd, g2], ?_, fun h => absurd rfl h⟩
      · unfold evalDiagAbove
        simp only [hz.tree, hr, hlv, hasc, bind, Except.bind]
        have hfold : ∀ (l : List Nat) (s : Nat → Arr R), (l.map (· + 1)).foldlM (fun ab l =>
            ((x.tree.nodesWithLevel lev l).filter (fun i => z.active i && (γ :: asc).contains i)).foldlM
              (aboveNode z γ (upd ts γ g)) ab) s = (.ok s : Py _) := by
          intro l
          induction l with
          | nil => intro s; rfl
          | cons a l ih =>
            intro s
            rw [List.map_cons, List.foldlM_cons, hnil, List.foldlM_nil]
            exact ih s
        rw [hfold]
        simp [upd]
      · intro c hc
        have : c ≠ γ := by
          rintro rfl
          have he' := (mem_children c c heγ.1).1 (List.mem_filter.1 hc).1
          exact hroot.2 c he'
        simp only [upd, if_neg this]
    · have hE := evalDiagBelowE_other z hzV hzr hzroot hze hγ
      obtain ⟨w, w1, w2⟩ := above_ok hx ha r hroot H hn hB (hz.internalOk hx ha hn) hu heγ.1 hr (ts := ts) (fun c h1 h2 h3 h4 => by
        refine t2 c h1 h2 (.inr fun h => ?_)
        rcases Relation.reflTransGen_iff_eq_or_transGen.1 h with h' | h'
        · exact h4 (h' ▸ .single heγ)
        · obtain ⟨b, q1, q2⟩ := Relation.TransGen.tail'_iff.1 h'
          rw [(edge_parent hx.valid q2).symm.trans (edge_parent hx.valid heγ)] at q1
          exact h3 q1)
      exact ⟨ts, w, by rw [hE, t1], w1, by rw [(w2 hγ).1]; rfl, fun _ _ => rfl, w2⟩
  obtain ⟨us, w, u1, u2, u3, u4, u5⟩ := hbelow
  have hmapu : ((x.tree.children γ).filter (fun c' => c' != α)).map us = ((x.tree.children γ).filter (fun c' => c' != α)).map ts :=
    List.map_congr_left u4
  -- the first factor
  have hfirst : ∃ ga, (if z.tree.isLeaf α then outerChain [(⟨[n], fun _ => 1⟩ : Arr R), H.getD (z.tree.dim2ind.idxOf α) ⟨[], fun _ => 0⟩]
      else childFactor z ts ⟨[n], fun _ => 1⟩ (fun c => H.getD (z.tree.dim2ind.idxOf c) ⟨[], fun _ => 0⟩) (z.tree.children α)) = ga ∧
      FirstOk x H n α γ ga := by
    refine ⟨_, rfl, ?_⟩
    rw [hz.tree]
    by_cases hlα : α ∈ x.tree.dim2ind
    · have hlf : x.tree.isLeaf α = true := (isLeaf_mem _ _).2 hlα
      rw [if_pos hlf]
      have hsd : x.shape.getD (dimOf x.tree α) 0 = x.leafSize α := by rw [shape_getD (x := x) hlα]
      have hM := hH _ (dimOf_lt hlα)
      rw [hsd] at hM
      obtain ⟨v1, v2⟩ := outer_gen (⟨[n], fun _ => 1⟩ : Arr R) (H.getD (dimOf x.tree α) ⟨[], fun _ => 0⟩) n [] [x.leafSize α] rfl hM
      have ho : outerChain [(⟨[n], fun _ => 1⟩ : Arr R), H.getD (x.tree.dim2ind.idxOf α) ⟨[], fun _ => 0⟩] =
        FullTensor.tensordotEvalDiag (⟨[n], fun _ => 1⟩ : Arr R) (H.getD (dimOf x.tree α) ⟨[], fun _ => 0⟩) [] [] [0] [0] := rfl
      rw [ho]
      unfold FirstOk
      rw [s2 hlα]
      refine ⟨by simpa using v1, ?_⟩
      intro x' hx' k hk B' hB' i
      rw [hB'.leaf α (by rw [hx'.tree]; exact hlα), hx'.leaf hx ha heγ hlα, hx'.tree, sumBox_singleton]
      refine sum_congr rfl (fun a _ => ?_)
      have h2 := v2 k [] [a] rfl rfl
      simp only [List.nil_append, one_mul] at h2
      rw [h2]
      rfl
    · have hlf : x.tree.isLeaf α = false := by
        by_contra hh; exact hlα ((isLeaf_mem _ _).1 (by simpa using hh))
      rw [if_neg (by simp [hlf])]
      have hcf := childFactor_eq x hx ha H n hn B hB α hz hα (fun _ => true) ts (⟨[n], fun _ => 1⟩ : Arr R)
        (fun c => H.getD (x.tree.dim2ind.idxOf c) ⟨[], fun _ => 0⟩)
      rw [List.filter_true] at hcf
      rw [hcf]
      have hch : ∀ c ∈ x.tree.children α, Edge x.tree α c ∧ ¬ AncSelf x.tree c α := by
        intro c hc
        have he := (mem_children α c hα).1 hc
        exact ⟨he, fun h => Anc.irrefl hx.valid α (Relation.TransGen.head' he h)⟩
      have hbel : ∀ c ∈ x.tree.children α, BelowOk x n B ts c := fun c hc =>
        t2 c (hch c hc).1.2.1 (WF.child_not_root (hch c hc).1) (.inr (hch c hc).2)
      have hne' : x.tree.children α ≠ [] := by
        intro h0
        have := hu α hα hlα
        rw [h0] at this; simp at this
      obtain ⟨c1, c2⟩ := outer_children (x.tree.children α) hne' x.lastDim ts n (fun c hc => (hbel c hc).1)
      unfold FirstOk
      rw [s3 hlα]
      refine ⟨c1, ?_⟩
      intro x' hx' k hk B' hB' i
      rw [hB'.node α (by rw [hx'.tree]; exact hα) (by rw [hx'.tree]; exact hlα), hx'.tree]
      have : (x.tree.children α).map x'.lastDim = (x.tree.children α).map x.lastDim :=
        List.map_congr_left (fun c hc => hx'.lastOff
          (by rintro rfl; exact (hch c hc).2 .refl) (by rintro rfl; exact (hch c hc).2 (.single heγ)))
      rw [this]
      apply sumBox_congr
      intro t ht
      rw [c2 k t (by simpa using ht.length_eq)]
      congr 2
      apply zipWith_congr_inBox _ _ _ _ t ht
      intro c hc j hj
      rw [(hbel c hc).2 k j hk hj, eval_pair hx ha hx' heγ (hB k) hB' c (hch c hc).1.2.1 (hch c hc).2]
  obtain ⟨ga, ga1, ga2⟩ := hfirst
  have hval : ∀ k, k < n → ∀ t, InBox (siblingSizes x α γ) t →
      (outerChain (((x.tree.children γ).filter (fun c' => c' != α)).map ts)).get (k :: t) =
        (List.zipWith (fun c j => B k c [j]) ((x.tree.children γ).filter (fun c' => c' != α)) t).prod := by
    intro k hk t ht
    rw [o2 k t (by have := ht.length_eq; unfold siblingSizes at this; simpa using this)]
    congr 1
    apply zipWith_congr_inBox _ _ _ _ t ht
    intro c hc j hj
    exact (hsib c hc).2 k j hk hj
  have hrun : ∀ gg, (if γ = r then outerChain (((x.tree.children γ).filter (fun c' => c' != α)).map ts) else
      FullTensor.tensordotEvalDiag (outerChain (((x.tree.children γ).filter (fun c' => c' != α)).map ts)) w [] [] [0] [0]) = gg →
      paramGradEvalDiagDmrg z α H = .ok (FullTensor.tensordotEvalDiag ga gg [] [] [0] [0], ga, gg) := by
    intro gg hgg
    have hcf := childFactor_eq x hx ha H n hn B hB α hz heγ.1 (fun c => c != α) us (⟨[n], fun _ => 1⟩ : Arr R)
      (fun c => H.getD (x.tree.dim2ind.idxOf c) ⟨[], fun _ => 0⟩)
    rw [hmapu] at hcf
    unfold paramGradEvalDiagDmrg
    rw [← ga1]
    simp only [hz.tree, hr, edge_parent hx.valid heγ, u1, u2, u3, t1, hcf, hgg, bind, Except.bind]
  refine ⟨ga, _, hrun _ rfl, ga2, ?_⟩
  by_cases hγ : γ = r
  · unfold SecondOk
    simp only [if_pos hγ]
    refine ⟨by rw [o1, List.append_nil]; rfl, ?_⟩
    intro x' hx' k hk B' hB' e he
    have := split_pair x hx ha α γ heγ hx' (hB k) hB' e
    rw [hγ] at this ⊢
    rw [this]
    apply sumBox_congr
    intro t ht
    rw [← hγ] at ht ⊢
    rw [hval k hk t ht]
  · unfold SecondOk
    simp only [if_neg hγ]
    obtain ⟨v1, v2⟩ := outer_gen _ w n _ (x.lastDim γ :: rankShape x r) o1 (u5 hγ).1
    refine ⟨v1, ?_⟩
    intro x' hx' k hk B' hB' e he
    rw [← (u5 hγ).2 x' (hx'.sub hx heγ (fun h => hγ (root_unique hx.valid h hroot))) k hk B' hB' e he]
    have : ∀ j ∈ range (x.lastDim γ), w.get (k :: j :: e) * B' γ [j] = sumBox (siblingSizes x α γ) (fun t =>
        (FullTensor.tensordotEvalDiag (outerChain (((x.tree.children γ).filter (fun c' => c' != α)).map ts)) w [] [] [0] [0]).get
          (k :: (t ++ j :: e)) * ∑ i ∈ range (x'.lastDim α),
            B' α [i] * (x'.tensors γ).get (t.insertIdx ((x.tree.children γ).idxOf α) i ++ [j])) := by
      intro j _
      rw [split_pair x hx ha α γ heγ hx' (hB k) hB' [j], ← sumBox_mul_left]
      apply sumBox_congr
      intro t ht
      rw [v2 k t (j :: e) (by have := ht.length_eq; unfold siblingSizes at this; simpa using this) (by simpa using he.length_eq), hval k hk t ht]
      ring
    rw [sum_congr rfl this, sum_sumBox_comm]

end gradient

/-- With all the children active and in increasing order there is nothing to permute. -/
theorem childOrder_id {active : Nat → Bool} {l : List Nat} (ha : ∀ c ∈ l, active c = true) (hs : l.Pairwise (· < ·)) :
    childOrder active l = List.range l.length := by
  have f1 : l.filter active = l := List.filter_eq_self.2 ha
  have f2 : l.filter (fun c => !active c) = [] := by
    rw [List.filter_eq_nil_iff]
    intro c hc
    simp [ha c hc]
  unfold childOrder
  rw [f1, f2, List.append_nil, argsort_id hs]

theorem range_cat (a b : Nat) : List.range a ++ (List.range b).map (a + ·) = List.range (a + b) := by
  rw [List.range_add]

theorem succ_range (a : Nat) : 0 :: (List.range a).map (· + 1) = List.range (a + 1) := by
  rw [List.range_succ_eq_map]

theorem range_snoc (a : Nat) (l : List Nat) : List.range a ++ a :: l = List.range (a + 1) ++ l := by
  rw [List.range_succ]; simp

section final

variable [CommSemiring R] (x : TBT R) (hx : WF x) (ha : AllActive x) (r : Nat) (hroot : IsRoot x.tree r) (H : List (Arr R)) (n : Nat)
  (hn : 0 < n) (hH : ∀ d, d < x.order → (H.getD d ⟨[], fun _ => 0⟩).shape = [n, x.shape.getD d 0])
  (α γ : Nat)

/-- The two factors and the permutations, for both variants. -/
structure DmrgOk (x : TBT R) (r : Nat) (H : List (Arr R)) (n α γ : Nat) (fH : TBT R) (ga gg : Arr R) : Prop where
  first : FirstOk x H n α γ ga
  second : SecondOk x r H n α γ gg
  active : ∀ i, IsNode x.tree i → fH.active i = true
  orderL : (fH.tensors α).order = (ownSizes x α).length + 1
  orderR : (fH.tensors γ).order = (siblingSizes x α γ).length + 1 + (rankShape x γ).length

include hx ha hroot hn hH in
theorem dmrgGrads_ok (hu : NoUnary x.tree) (heγ : Edge x.tree γ α) (hr : x.tree.root = .ok r) :
    ∃ fH ga gg, dmrgGrads x α H = .ok (fH, FullTensor.tensordotEvalDiag ga gg [] [] [0] [0], ga, gg) ∧
      DmrgOk x r H n α γ fH ga gg := by
  obtain ⟨V, hV⟩ := exists_value x hx.valid
  obtain ⟨a, a1, -⟩ := full_on x hx hV.on hr
  have hex : ∀ k, ∃ B, IsEval x (rowW H k) B := fun k => by
    obtain ⟨B, hB, -⟩ := exists_eval x hx ha r hr (rowW H k) a1
    exact ⟨B, hB⟩
  choose B hB using hex
  obtain ⟨z, z1, z2⟩ := leafProducts_ok x hx ha H n hH B hB α rfl
  obtain ⟨ga, gg, g1, g2, g3⟩ := paramGradEvalDiagDmrg_ok x hx ha r hroot H n hn hH B hB α γ hu heγ hr z2
  have hall := all_active_all ha
  have hl := edge_internal hx.valid heγ
  refine ⟨z, ga, gg, ?_, g2, g3, fun i hi => z2.active hx ha hn hi, ?_, ?_⟩
  · unfold dmrgGrads
    simp only [hall, if_true, z1, g1, bind, Except.bind]
  · obtain ⟨s1, -, -⟩ := ownSizes_spec x hx ha α γ heγ
    show (z.tensors α).shape.length = _
    rw [z2.off α (.inr rfl), s1]; simp
  · show (z.tensors γ).shape.length = _
    rw [z2.off γ (.inl hl), (hx.node γ heγ.1 hl).2.1]
    have := List.length_eq_length_filter_add (l := x.tree.children γ) (fun c => c != α)
    have h1 : ((x.tree.children γ).filter (fun c => !(c != α))).length = 1 := by
      have : (x.tree.children γ).filter (fun c' => !(c' != α)) = (x.tree.children γ).filter (fun c' => c' == α) := by
        apply List.filter_congr
        intro a _
        simp [bne]
      rw [this, List.filter_beq, List.count_eq_one_of_mem (nodup_children (T := x.tree) γ) ((mem_children γ α heγ.1).2 heγ)]
      rfl
    rw [h1] at this
    unfold siblingSizes
    simp only [List.length_append, List.length_map]
    omega

include hx ha in
theorem DmrgOk.perms {fH : TBT R} {ga gg : Arr R} (h : DmrgOk x r H n α γ fH ga gg) (heγ : Edge x.tree γ α) :
    dmrgPerm1 x.tree fH.active α = List.range (ownSizes x α).length ∧
      childOrder fH.active ((x.tree.children γ).filter (fun c => c != α)) = List.range (siblingSizes x α γ).length := by
  obtain ⟨s1, s2, s3⟩ := ownSizes_spec x hx ha α γ heγ
  constructor
  · unfold dmrgPerm1
    by_cases hl : α ∈ x.tree.dim2ind
    · have : x.tree.children α = [] := by
        rw [List.eq_nil_iff_forall_not_mem]
        intro c hc
        exact ((hx.valid.leaves α).1 hl).2 c ((mem_children α c heγ.2.1).1 hc)
      rw [this, s2 hl]; rfl
    · have hne : (x.tree.children α).isEmpty = false := by
        rw [List.isEmpty_eq_false_iff]
        intro h0
        exact hl ((hx.valid.leaves α).2 ⟨heγ.2.1, fun c hc => by
          have := (mem_children α c heγ.2.1).2 hc; rw [h0] at this; simp at this⟩)
      rw [hne, if_neg (by simp), childOrder_id (fun c hc => h.active c ((mem_children α c heγ.2.1).1 hc).2.1) (children_sorted α), s3 hl,
        List.length_map]
  · rw [childOrder_id (fun c hc => h.active c ((mem_children γ c heγ.1).1 (List.mem_filter.1 hc).1).2.1)
      ((children_sorted γ).filter _)]
    unfold siblingSizes
    rw [List.length_map]

end final

section rank

variable [CommSemiring R] {x : TBT R} (hx : WF x) {r : Nat} (hroot : IsRoot x.tree r)

include hx hroot in
theorem rank_root_cases : (rankShape x r = [] ∧ decide (1 < x.rank r) = false) ∨ (rankShape x r = [1] ∧ decide (1 < x.rank r) = false) ∨
    ∃ m, 1 < m ∧ rankShape x r = [m] ∧ decide (1 < x.rank r) = true := by
  rw [rank_root_eq hx r hroot]
  have hlen := (hx.node r hroot.1 (hx.root_internal hroot)).2.2.1
  have hact := (hx.node r hroot.1 (hx.root_internal hroot)).1
  match hEE : rankShape x r, hlen with
  | [], _ => left; exact ⟨rfl, rfl⟩
  | [m], _ =>
    by_cases h1 : m = 1
    · subst h1; right; left; exact ⟨rfl, rfl⟩
    · right; right
      refine ⟨m, ?_, rfl, ?_⟩
      · have h0 : m ≠ 0 := by
          rintro rfl
          unfold TBT.active at hact
          rw [(hx.node r hroot.1 (hx.root_internal hroot)).2.1, hEE] at hact
          simp at hact
        omega
      · have h0 : m ≠ 0 := by
          rintro rfl
          unfold TBT.active at hact
          rw [(hx.node r hroot.1 (hx.root_internal hroot)).2.1, hEE] at hact
          simp at hact
        have : 1 < m := by omega
        simpa using this

end rank

theorem transposeT_len {g : Arr R} {l : List Nat} (h : l.length ≠ g.order) : FullTensor.transposeT g l = .error .valueError := by
  unfold FullTensor.transposeT
  rw [if_neg]
  intro hp
  exact h (by simpa using hp.length_eq)

section claims

variable [CommSemiring R] (x : TBT R) (hx : WF x) (ha : AllActive x) (hu : NoUnary x.tree) (r : Nat) (hr : x.tree.root = .ok r)
  (H : List (Arr R)) (n : Nat) (hn : 0 < n) (hlen : H.length = x.order)
  (hH : ∀ d, d < x.order → (H.getD d ⟨[], fun _ => 0⟩).shape = [n, x.shape.getD d 0]) (α γ : Nat) (heγ : Edge x.tree γ α)

include hx ha hlen in
/-- The value of the function from the two factors. -/
theorem DmrgOk.value (hr : x.tree.root = .ok r) (heγ : Edge x.tree γ α) {fH : TBT R} {ga gg : Arr R}
    (h : DmrgOk x r H n α γ fH ga gg) (x' : TBT R) (a' : Arr R) (hx' : PairOk x x' α γ) (hf : full x' = .ok a') (k : Nat) (e : List Nat)
    (hk : k < n) (he : InBox (rankShape x r) e) :
    predict x.shape H a' k e = sumBox (ownSizes x α) (fun s => sumBox (siblingSizes x α γ) (fun t =>
      ga.get (k :: s) * (if γ = r then gg.get (k :: t) * mergedEntry x' α γ s t e
        else ∑ j ∈ range (x.lastDim γ), gg.get (k :: (t ++ j :: e)) * mergedEntry x' α γ s t [j]))) := by
  obtain ⟨r', hr', hroot⟩ := root_ok hx.valid
  rw [hr] at hr'; cases hr'
  obtain ⟨B', hB', hB2⟩ := exists_eval x' hx'.wf hx'.act r (by rw [hx'.tree]; exact hr) (rowW H k) hf
  have ho : x'.order = x.order := by unfold TBT.order; rw [hx'.tree]
  have h1 := hB2 e (by rw [hx'.rankRoot heγ hroot]; exact he)
  rw [hx'.shapeEq hx ha heγ, ho, predict_eq H k rfl hlen] at h1
  rw [← h1, h.second.2 x' hx' k hk B' hB' e he, sumBox_comm]
  apply sumBox_congr
  intro t ht
  have hin : ∀ f : Nat → R, ∑ i ∈ range (x'.lastDim α), B' α [i] * f i = sumBox (ownSizes x α) (fun s => ga.get (k :: s) *
      ∑ i ∈ range (x'.lastDim α), (x'.tensors α).get (s ++ [i]) * f i) := by
    intro f
    have : ∀ i ∈ range (x'.lastDim α), B' α [i] * f i = sumBox (ownSizes x α) (fun s => ga.get (k :: s) *
        ((x'.tensors α).get (s ++ [i]) * f i)) := by
      intro i _
      rw [h.first.2 x' hx' k hk B' hB' i, ← sumBox_mul_right]
      apply sumBox_congr
      intro s _
      ring
    rw [sum_congr rfl this, sum_sumBox_comm]
    apply sumBox_congr
    intro s _
    rw [mul_sum]
  have hm : ∀ s e', mergedEntry x' α γ s t e' = ∑ i ∈ range (x'.lastDim α), (x'.tensors α).get (s ++ [i]) *
      (x'.tensors γ).get (t.insertIdx ((x.tree.children γ).idxOf α) i ++ e') := by
    intro s e'
    unfold mergedEntry
    rw [hx'.tree]
  by_cases hγ : γ = r
  · simp only [if_pos hγ, hm]
    rw [hin, ← sumBox_mul_left]
    apply sumBox_congr
    intro s _
    ring
  · simp only [if_neg hγ, hm]
    have : ∀ j ∈ range (x.lastDim γ), gg.get (k :: (t ++ j :: e)) * ∑ i ∈ range (x'.lastDim α),
          B' α [i] * (x'.tensors γ).get (t.insertIdx ((x.tree.children γ).idxOf α) i ++ [j]) =
        sumBox (ownSizes x α) (fun s => ga.get (k :: s) * (gg.get (k :: (t ++ j :: e)) * ∑ i ∈ range (x'.lastDim α),
          (x'.tensors α).get (s ++ [i]) * (x'.tensors γ).get (t.insertIdx ((x.tree.children γ).idxOf α) i ++ [j]))) := by
      intro j _
      rw [hin, ← sumBox_mul_left]
      apply sumBox_congr
      intro s _
      ring
    rw [sum_congr rfl this, sum_sumBox_comm]
    apply sumBox_congr
    intro s _
    rw [mul_sum]

include hx ha hu hr hn hlen hH heγ in
/-- C208. `parameter_gradient_eval_dmrg(alpha)` of a function in tree-based format with all nodes active and without unary node, for a
node `alpha` whose parent `gamma` is not the root: the gradient has one row per point, then the axes of the tensor obtained by merging
`alpha` and `gamma`, then the output axis of the root. Whatever the tensors put at `alpha` and `gamma`, even with another rank of `alpha`, the value of the function at
point `k` is the contraction of row `k` of the gradient with the merged tensor. An output axis of size one is excluded (the code
raises). -/
theorem paramGradEvalDmrg_node_partial (hγ : γ ≠ r) (hE : rankShape x r ≠ [1]) :
    ∃ g, paramGradEvalDmrg x α H = .ok g ∧
      g.shape = n :: (ownSizes x α ++ siblingSizes x α γ ++ x.lastDim γ :: rankShape x r) ∧
      ∀ x' a', WF x' → AllActive x' → SamePair x x' α γ → full x' = .ok a' → ∀ k e, k < n → InBox (rankShape x r) e →
        predict x.shape H a' k e = sumBox (ownSizes x α) (fun s => sumBox (siblingSizes x α γ) (fun t =>
          ∑ j ∈ range (x.lastDim γ), g.get (k :: (s ++ t ++ j :: e)) * mergedEntry x' α γ s t [j])) := by
  obtain ⟨r', hr', hroot⟩ := root_ok hx.valid
  rw [hr] at hr'; cases hr'
  obtain ⟨fH, ga, gg, h1, h2⟩ := dmrgGrads_ok x hx ha r hroot H n hn hH α γ hu heγ hr
  obtain ⟨p1, p2⟩ := h2.perms x hx ha r H n α γ heγ
  have hαr : α ≠ r := fun h => hroot.2 γ (h ▸ heγ)
  have hgs := h2.second.1
  rw [if_neg hγ] at hgs
  obtain ⟨o1, o2⟩ := outer_gen ga gg n _ _ h2.first.1 hgs
  generalize hg : FullTensor.tensordotEvalDiag ga gg [] [] [0] [0] = g at h1 o1 o2
  have e3 : rankShape x γ = [x.lastDim γ] := by
    have := hx.rs_eq heγ.1 (fun h => hγ (root_unique hx.valid h hroot))
    rwa [rs_node (edge_internal hx.valid heγ)] at this
  have ho : g.order = (ownSizes x α).length + (siblingSizes x α γ).length + 2 + (rankShape x r).length := by
    show g.shape.length = _
    rw [o1]; simp; omega
  have hoR := h2.orderR
  rw [e3] at hoR
  have hperm : dmrgPerm x.tree fH.active r α γ (fH.tensors α).order (fH.tensors γ).order g.order (decide (1 < x.rank r)) =
      List.range g.order := by
    unfold dmrgPerm
    simp only [p1, p2, List.length_range, range_cat, h2.orderL, hoR, hαr, hγ, ne_eq, not_false_eq_true, and_self, if_true, true_and,
      List.length_singleton]
    rw [← List.cons_append, ← List.cons_append, succ_range,
      show (ownSizes x α).length + 1 + ((siblingSizes x α γ).length + 1 + 1) - 2 =
        (ownSizes x α).length + (siblingSizes x α γ).length + 1 by omega, range_snoc]
    rcases rank_root_cases hx hroot with ⟨q1, q2⟩ | ⟨q1, q2⟩ | ⟨m, q0, q1, q2⟩
    · rw [q1] at ho
      simp only [q2, Bool.false_eq_true, if_false, List.append_nil, ho, List.length_nil]
    · exact absurd q1 hE
    · rw [q1] at ho
      simp only [q2, if_true, List.append_nil, ho, List.length_singleton]
      rw [show (ownSizes x α).length + (siblingSizes x α γ).length + 2 + 1 - 1 =
        (ownSizes x α).length + (siblingSizes x α γ).length + 1 + 1 by omega, range_snoc, List.append_nil]
  obtain ⟨g', t1, t2, t3⟩ := transposeT_range g
  refine ⟨g', ?_, by rw [t2, o1, List.append_assoc], ?_⟩
  · unfold paramGradEvalDmrg
    simp only [hr, h1, edge_parent hx.valid heγ, hperm, t1, bind, Except.bind]
  · intro x' a' hw hac hx' hf k e hk he
    rw [h2.value x hx ha r H n hlen α γ hr heγ x' a' ⟨hx', hw, hac⟩ hf k e hk he]
    apply sumBox_congr
    intro s hs
    apply sumBox_congr
    intro t ht
    rw [if_neg hγ, mul_sum]
    refine sum_congr rfl (fun j hj => ?_)
    rw [List.append_assoc, t3, o2 k s _ hs.length_eq (by simp [ht.length_eq, he.length_eq])]
    · ring
    · rw [o1]
      exact .cons hk ((inBox_append hs.length_eq).2 ⟨hs, (inBox_append ht.length_eq).2 ⟨ht, .cons (Finset.mem_range.1 hj) he⟩⟩)

include hx ha hu hr hn hlen hH heγ in
/-- C208. `parameter_gradient_eval_dmrg(alpha)` for a node `alpha` whose parent `gamma` is the root: the gradient has one row per point,
then the axes of the merged tensor without its output axis. The value of the function at point `k` is the contraction of row `k` of
the gradient with the merged tensor. Outputs of size larger than one are excluded (the code raises). -/
theorem paramGradEvalDmrg_root_partial (hγ : γ = r) (hE : ∀ m ∈ rankShape x r, m = 1) :
    ∃ g, paramGradEvalDmrg x α H = .ok g ∧ g.shape = n :: (ownSizes x α ++ siblingSizes x α γ) ∧
      ∀ x' a', WF x' → AllActive x' → SamePair x x' α γ → full x' = .ok a' → ∀ k e, k < n → InBox (rankShape x r) e →
        predict x.shape H a' k e = sumBox (ownSizes x α) (fun s => sumBox (siblingSizes x α γ) (fun t =>
          g.get (k :: (s ++ t)) * mergedEntry x' α γ s t e)) := by
  obtain ⟨r', hr', hroot⟩ := root_ok hx.valid
  rw [hr] at hr'; cases hr'
  obtain ⟨fH, ga, gg, h1, h2⟩ := dmrgGrads_ok x hx ha r hroot H n hn hH α γ hu heγ hr
  subst hγ
  obtain ⟨p1, p2⟩ := h2.perms x hx ha γ H n α γ heγ
  have hgs := h2.second.1
  rw [if_pos rfl, List.append_nil] at hgs
  obtain ⟨o1, o2⟩ := outer_gen ga gg n _ _ h2.first.1 hgs
  generalize hg : FullTensor.tensordotEvalDiag ga gg [] [] [0] [0] = g at h1 o1 o2
  have ho : g.order = (ownSizes x α).length + (siblingSizes x α γ).length + 1 := by
    show g.shape.length = _
    rw [o1]; simp
  have hlast : decide (1 < x.rank γ) = false := by
    rcases rank_root_cases hx hroot with ⟨q1, q2⟩ | ⟨q1, q2⟩ | ⟨m, q0, q1, q2⟩
    · exact q2
    · exact q2
    · have := hE m (by rw [q1]; simp)
      omega
  have hperm : dmrgPerm x.tree fH.active γ α γ (fH.tensors α).order (fH.tensors γ).order g.order (decide (1 < x.rank γ)) =
      List.range g.order := by
    unfold dmrgPerm
    simp only [p1, p2, List.length_range, range_cat, ne_eq, not_true_eq_false, and_false, if_false, hlast, Bool.false_eq_true,
      List.append_nil, succ_range, ho]
  obtain ⟨g', t1, t2, t3⟩ := transposeT_range g
  refine ⟨g', ?_, by rw [t2, o1], ?_⟩
  · unfold paramGradEvalDmrg
    simp only [hr, h1, edge_parent hx.valid heγ, hperm, t1, bind, Except.bind]
  · intro x' a' hw hac hx' hf k e hk he
    rw [h2.value x hx ha γ H n hlen α γ hr heγ x' a' ⟨hx', hw, hac⟩ hf k e hk he]
    apply sumBox_congr
    intro s hs
    apply sumBox_congr
    intro t ht
    rw [if_pos rfl, t3, o2 k s _ hs.length_eq ht.length_eq]
    · ring
    · rw [o1]
      exact .cons hk ((inBox_append hs.length_eq).2 ⟨hs, ht⟩)

include hx ha hu hr hn hH heγ in
/-- The excluded cases: an output axis of size one when the parent is not the root, more than one output when it is. The permutation of
the axes has not the right length. -/
theorem paramGradEvalDmrg_raises (hE : (γ ≠ r ∧ rankShape x r = [1]) ∨ (γ = r ∧ ∃ m, 1 < m ∧ rankShape x r = [m])) :
    paramGradEvalDmrg x α H = .error .valueError := by
  obtain ⟨r', hr', hroot⟩ := root_ok hx.valid
  rw [hr] at hr'; cases hr'
  obtain ⟨fH, ga, gg, h1, h2⟩ := dmrgGrads_ok x hx ha r hroot H n hn hH α γ hu heγ hr
  obtain ⟨p1, p2⟩ := h2.perms x hx ha r H n α γ heγ
  have hαr : α ≠ r := fun h => hroot.2 γ (h ▸ heγ)
  obtain ⟨o1, -⟩ := outer_gen ga gg n _ _ h2.first.1 h2.second.1
  generalize hg : FullTensor.tensordotEvalDiag ga gg [] [] [0] [0] = g at h1 o1
  unfold paramGradEvalDmrg
  simp only [hr, h1, edge_parent hx.valid heγ, bind, Except.bind]
  apply transposeT_len
  show _ ≠ g.shape.length
  rw [o1]
  unfold dmrgPerm
  simp only [p1, p2, List.length_range, range_cat]
  rcases hE with ⟨hγ, q⟩ | ⟨hγ, m, q0, q⟩
  · rcases rank_root_cases hx hroot with ⟨q1, q2⟩ | ⟨q1, q2⟩ | ⟨m, q0, q1, q2⟩
    · rw [q] at q1; simp at q1
    · simp [hγ, hαr, q2, q]
      omega
    · rw [q] at q1
      simp only [List.cons.injEq, and_true] at q1
      omega
  · rcases rank_root_cases hx hroot with ⟨q1, q2⟩ | ⟨q1, q2⟩ | ⟨m', q0', q1, q2⟩
    · rw [q] at q1; simp at q1
    · rw [q] at q1
      simp only [List.cons.injEq, and_true] at q1
      omega
    · subst hγ
      simp [hαr, q2]

include hx ha hu hr hn hlen hH heγ in
/-- C208. The low-rank variant: the gradient is given by two factors, one for `alpha` without its rank and one for the other axes of its
parent `gamma`. The value of the function at point `k` is the contraction of the product of rows `k` of the factors with the merged
tensor. A function with an output axis is excluded if `gamma` is not the root (the code raises), as are several outputs if it is. -/
theorem paramGradEvalLowRank_partial (hE : (γ ≠ r ∧ rankShape x r = []) ∨ (γ = r ∧ ∀ m ∈ rankShape x r, m = 1)) :
    ∃ ga gg, paramGradEvalLowRank x α H = .ok (ga, gg) ∧ ga.shape = n :: ownSizes x α ∧
      gg.shape = n :: (siblingSizes x α γ ++ if γ = r then [] else [x.lastDim γ]) ∧
      ∀ x' a', WF x' → AllActive x' → SamePair x x' α γ → full x' = .ok a' → ∀ k e, k < n → InBox (rankShape x r) e →
        predict x.shape H a' k e = sumBox (ownSizes x α) (fun s => sumBox (siblingSizes x α γ) (fun t =>
          ga.get (k :: s) * (if γ = r then gg.get (k :: t) * mergedEntry x' α γ s t e
            else ∑ j ∈ range (x.lastDim γ), gg.get (k :: (t ++ [j])) * mergedEntry x' α γ s t [j]))) := by
  obtain ⟨r', hr', hroot⟩ := root_ok hx.valid
  rw [hr] at hr'; cases hr'
  obtain ⟨fH, ga, gg, h1, h2⟩ := dmrgGrads_ok x hx ha r hroot H n hn hH α γ hu heγ hr
  obtain ⟨p1, p2⟩ := h2.perms x hx ha r H n α γ heγ
  have hlast : decide (1 < x.rank r) = false := by
    rcases rank_root_cases hx hroot with ⟨q1, q2⟩ | ⟨q1, q2⟩ | ⟨m, q0, q1, q2⟩
    · exact q2
    · exact q2
    · rcases hE with ⟨_, h⟩ | ⟨_, h⟩
      · rw [q1] at h; simp at h
      · have := h m (by rw [q1]; simp)
        omega
  have hgs := h2.second.1
  have hgs' : gg.shape = n :: (siblingSizes x α γ ++ if γ = r then [] else [x.lastDim γ]) := by
    rw [hgs]
    rcases hE with ⟨hγ, h⟩ | ⟨hγ, _⟩
    · rw [if_neg hγ, if_neg hγ, h]
    · rw [if_pos hγ, if_pos hγ]
  have hpa : 0 :: (dmrgPerm1 x.tree fH.active α).map (· + 1) = List.range ga.order := by
    rw [p1, succ_range]
    show _ = List.range ga.shape.length
    rw [h2.first.1]; rfl
  have hpg : ∀ o, lowRankPerm x.tree fH.active r α γ (fH.tensors γ).order o (decide (1 < x.rank r)) = List.range gg.order := by
    intro o
    unfold lowRankPerm
    show _ = List.range gg.shape.length
    rw [p2, hgs', hlast]
    simp only [Bool.false_eq_true, and_false, if_false, List.append_nil]
    rw [← List.cons_append, succ_range]
    by_cases hγ : γ = r
    · simp [hγ]
    · have e3 : rankShape x γ = [x.lastDim γ] := by
        have := hx.rs_eq heγ.1 (fun h => hγ (root_unique hx.valid h hroot))
        rwa [rs_node (edge_internal hx.valid heγ)] at this
      have hoR := h2.orderR
      rw [e3] at hoR
      simp only [ne_eq, hγ, not_false_eq_true, if_true, if_false, hoR, List.length_cons, List.length_append, List.length_nil]
      rw [show (siblingSizes x α γ).length + 1 + (0 + 1) - 1 = (siblingSizes x α γ).length + 1 by omega, range_snoc, List.append_nil]
  obtain ⟨ga', t1, t2, t3⟩ := transposeT_range ga
  obtain ⟨gg', w1, w2, w3⟩ := transposeT_range gg
  refine ⟨ga', gg', ?_, by rw [t2, h2.first.1], by rw [w2, hgs'], ?_⟩
  · unfold paramGradEvalLowRank
    simp only [hr, h1, edge_parent hx.valid heγ, hpa, hpg, t1, w1, bind, Except.bind]
  · intro x' a' hw hac hx' hf k e hk he
    rw [h2.value x hx ha r H n hlen α γ hr heγ x' a' ⟨hx', hw, hac⟩ hf k e hk he]
    apply sumBox_congr
    intro s hs
    apply sumBox_congr
    intro t ht
    rw [t3 (k :: s) (by rw [h2.first.1]; exact .cons hk hs)]
    congr 1
    by_cases hγ : γ = r
    · simp only [if_pos hγ]
      rw [w3]
      rw [hgs', if_pos hγ, List.append_nil]
      exact .cons hk ht
    · simp only [if_neg hγ]
      have he0 : e = [] := by
        have h := (hE.resolve_right (fun h => hγ h.1)).2
        rw [h] at he
        simpa using he.length_eq
      subst he0
      refine sum_congr rfl (fun j hj => ?_)
      rw [w3]
      rw [hgs', if_neg hγ]
      exact .cons hk ((inBox_append ht.length_eq).2 ⟨ht, inBox_one (Finset.mem_range.1 hj)⟩)

include hx ha hu hr hn hH heγ in
/-- The excluded cases of the low-rank variant. -/
theorem paramGradEvalLowRank_raises
    (hE : (γ ≠ r ∧ rankShape x r ≠ []) ∨ (γ = r ∧ ∃ m, 1 < m ∧ rankShape x r = [m])) :
    paramGradEvalLowRank x α H = .error .valueError := by
  obtain ⟨r', hr', hroot⟩ := root_ok hx.valid
  rw [hr] at hr'; cases hr'
  obtain ⟨fH, ga, gg, h1, h2⟩ := dmrgGrads_ok x hx ha r hroot H n hn hH α γ hu heγ hr
  obtain ⟨p1, p2⟩ := h2.perms x hx ha r H n α γ heγ
  have hαr : α ≠ r := fun h => hroot.2 γ (h ▸ heγ)
  have hpa : 0 :: (dmrgPerm1 x.tree fH.active α).map (· + 1) = List.range ga.order := by
    rw [p1, succ_range]
    show _ = List.range ga.shape.length
    rw [h2.first.1]; rfl
  obtain ⟨ga', t1, t2, t3⟩ := transposeT_range ga
  have hgs := h2.second.1
  obtain ⟨o1, -⟩ := outer_gen ga gg n _ _ h2.first.1 hgs
  generalize hg : FullTensor.tensordotEvalDiag ga gg [] [] [0] [0] = g at h1 o1
  have hgo : g.order = (ownSizes x α).length + gg.order := by
    show g.shape.length = _ + gg.shape.length
    rw [o1, hgs]; simp; omega
  unfold paramGradEvalLowRank
  simp only [hr, h1, edge_parent hx.valid heγ, hpa, t1, bind, Except.bind]
  have key : FullTensor.transposeT gg (lowRankPerm x.tree fH.active r α γ (fH.tensors γ).order g.order (decide (1 < x.rank r))) =
      .error .valueError := by
    rcases rank_root_cases hx hroot with ⟨q1, q2⟩ | ⟨q1, q2⟩ | ⟨m, q0, q1, q2⟩
    · exfalso
      rcases hE with ⟨_, h⟩ | ⟨_, m, h0, h⟩
      · exact h q1
      · rw [q1] at h; simp at h
    · have hγ : γ ≠ r := by
        rcases hE with ⟨h, _⟩ | ⟨_, m, h0, h⟩
        · exact h
        · rw [q1] at h
          simp only [List.cons.injEq, and_true] at h
          omega
      apply transposeT_len
      show _ ≠ gg.shape.length
      unfold lowRankPerm
      rw [hgs, p2, q2, q1]
      simp [hγ]
    · by_cases hγ : γ = r
      · apply transposeT_len
        show _ ≠ gg.shape.length
        unfold lowRankPerm
        rw [hgs, p2, q2]
        subst hγ
        simp [hαr]
      · unfold FullTensor.transposeT
        rw [if_neg]
        intro hp
        have hmem : g.order - 1 ∈ List.range gg.order := by
          rw [← hp.mem_iff]
          unfold lowRankPerm
          rw [q2]
          simp [hαr]
        rw [List.mem_range] at hmem
        obtain ⟨s1, s2, s3⟩ := ownSizes_spec x hx ha α γ heγ
        have hpos : 0 < (ownSizes x α).length := by
          by_cases hl : α ∈ x.tree.dim2ind
          · rw [s2 hl]; simp
          · rw [s3 hl, List.length_map]
            have := hu α heγ.2.1 hl
            omega
        omega
  rw [key]

end claims

/-- The hypotheses of C208 are met by `exU`: node 4, whose parent 2 is not the root, and node 2, whose parent is the root. -/
example : WF exU ∧ AllActive exU ∧ NoUnary exU.tree ∧ exU.tree.root = .ok 1 ∧ exH.length = exU.order ∧
    (∀ d, d < exU.order → (exH.getD d ⟨[], fun _ => 0⟩).shape = [4, exU.shape.getD d 0]) ∧
    Edge exU.tree 2 4 ∧ Edge exU.tree 1 2 ∧ rankShape exU 1 = [] := by
  have hi : ∀ i, IsNode exU.tree i → i ∈ [1, 2, 3, 4, 5] := by
    rintro i ⟨h1, h2⟩
    have : exU.tree.n = 5 := rfl
    simp only [List.mem_cons, List.not_mem_nil, or_false]
    omega
  refine ⟨exU_wf, ?_, ?_, by decide +kernel, rfl, by decide +kernel, ⟨⟨by decide, by decide⟩, ⟨by decide, by decide⟩, by decide +kernel⟩,
    ⟨⟨by decide, by decide⟩, ⟨by decide, by decide⟩, by decide +kernel⟩, by decide +kernel⟩
  · intro i h
    exact (show ∀ i ∈ [1, 2, 3, 4, 5], exU.active i = true by decide +kernel) i (hi i h)
  · intro i h hl
    exact (show ∀ i ∈ [1, 2, 3, 4, 5], i ∉ exU.tree.dim2ind → 2 ≤ (exU.tree.children i).length by decide +kernel) i (hi i h) hl

/-- `exU` with other tensors at nodes 4 and 2, and another rank of node 4. -/
def exU4 : TBT Int := ⟨exTree, upd (upd exU.tensors 4 ⟨[2, 5], fun t => 7 - t.getD 1 0⟩) 2 ⟨[1, 5, 2], fun _ => 1⟩⟩

/-- The other tensors of the statement are not only `exU` itself. -/
example : SamePair exU exU4 4 2 ∧ WF exU4 ∧ exU4.rank 4 = 5 ∧ exU.rank 4 = 2 :=
  ⟨⟨rfl, fun j h1 h2 => by simp [exU4, upd, h1, h2], by decide +kernel, by decide +kernel⟩, wf_of_wfB _ exTree_valid (by decide +kernel),
    by decide +kernel, by decide +kernel⟩

end Verif.TreeBased
