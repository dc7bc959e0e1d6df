import Verif.Model.ExplicitBases
import Verif.Props.Sets

/-!
# Bases of indicator functions and of given functions (C222, C223)
-/

namespace Verif.ExplicitBases

open Verif.Sets

variable {K : Type}

theorem mapM_ok_of {α β : Type} (f : α → Py β) (g : α → β) (l : List α) (h : ∀ a ∈ l, f a = .ok (g a)) :
    l.mapM f = .ok (l.map g) := by
  induction l with
  | nil => rfl
  | cons a l ih =>
    rw [List.mapM_cons, h a (by simp), ih (fun b hb => h b (by simp [hb]))]
    rfl

/-- C222. `eval(x)` for points with the dimension of the values: entry `(i, mu)` is 1 if the point `i` is the value `mu`, and 0
otherwise. -/
theorem delta_eval [DecidableEq K] (rows pts : List (List K)) (d : Nat) (md : Option Nat) (hr : ∀ v ∈ rows, v.length = d)
    (hp : ∀ u ∈ pts, u.length = d) :
    ∃ b, Delta.create (.mat rows d) md = .ok b ∧
      b.eval (.mat pts d) = .ok (pts.map (fun u => rows.map (fun v => if u = v then 1 else 0))) := by
  refine ⟨_, rfl, ?_⟩
  refine mapM_ok_of _ (fun u => rows.map (fun v => if u = v then 1 else 0)) _ fun u hu => ?_
  refine mapM_ok_of _ (fun v => if u = v then 1 else 0) _ fun v hv => ?_
  unfold deltaEntry allEqual
  rw [if_pos (by rw [hp u hu, hr v hv])]
  simp only [bind, Except.bind, decide_eq_true_eq]

/-- C222. The same for a vector of numbers and a vector of points. -/
theorem delta_eval_numbers [DecidableEq K] (vals pts : List K) (md : Option Nat) :
    ∃ b, Delta.create (.vec vals) md = .ok b ∧
      b.eval (.vec pts) = .ok (pts.map (fun a => vals.map (fun v => if a = v then 1 else 0))) := by
  refine ⟨_, rfl, ?_⟩
  have := mapM_ok_of (fun u : List K => (vals.map (fun a => [a])).mapM (fun v => deltaEntry u v))
    (fun u => vals.map (fun v => if u = [v] then 1 else 0)) (pts.map (fun a => [a])) (by
    intro u hu
    obtain ⟨a, _, rfl⟩ := List.mem_map.1 hu
    have h2 := mapM_ok_of (fun v => deltaEntry [a] v) (fun v => if [a] = v then (1 : ℚ) else 0) (vals.map (fun a => [a])) (by
      intro v hv
      obtain ⟨c, _, rfl⟩ := List.mem_map.1 hv
      unfold deltaEntry allEqual
      rw [if_pos (show [a].length = [c].length from rfl)]
      simp only [bind, Except.bind, decide_eq_true_eq])
    rw [h2, List.map_map]; rfl)
  show (pts.map (fun a => [a])).mapM _ = _
  rw [this, List.map_map]
  simp [Function.comp_def]

/-- Full statement (false of the code): the number of functions is the number of values. Here: only for as many values as dimensions. -/
theorem delta_cardinal_partial (rows : List (List K)) (md : Option Nat) :
    ∃ b, Delta.create (.mat rows rows.length) md = .ok b ∧ b.cardinal = rows.length := ⟨_, rfl, rfl⟩

/-- C222. The code: `cardinal()` is the dimension of the values, whatever their number. -/
theorem delta_cardinal_wrong (rows : List (List K)) (d : Nat) (md : Option Nat) (h : rows.length ≠ d) :
    ∃ b, Delta.create (.mat rows d) md = .ok b ∧ b.cardinal ≠ rows.length := ⟨_, rfl, fun h' => h h'.symm⟩

/-- C222. `ndim()` is the dimension of the measure, when it is given. -/
theorem delta_ndim (values : NpArr K) (d : Nat) (b : Delta K) (h : Delta.create values (some d) = .ok b) : b.ndim = d := by
  unfold Delta.create at h
  split at h <;> cases h <;> rfl

/-- C222. Without a measure `ndim()` is one, whatever the dimension of the values. -/
theorem delta_ndim_wrong (rows : List (List K)) (d : Nat) (h : d ≠ 1) :
    ∃ b, Delta.create (.mat rows d) none = .ok b ∧ b.ndim ≠ d := ⟨_, rfl, fun h' => h h'.symm⟩

theorem flatten_length {α : Type} (A : List (List α)) (m : Nat) (h : ∀ r ∈ A, r.length = m) : A.flatten.length = A.length * m := by
  induction A with
  | nil => simp
  | cons r A ih =>
    rw [List.flatten_cons, List.length_append, h r (by simp), ih (fun s hs => h s (by simp [hs])), List.length_cons]
    ring

/-- Reshaping to the same shape. -/
theorem reshape_same (A : List (List ℚ)) (m : Nat) (h : ∀ r ∈ A, r.length = m) : reshapeRows A A.length m = .ok A := by
  unfold reshapeRows
  rw [if_pos (flatten_length A m h)]
  congr 1
  induction A with
  | nil => rfl
  | cons r A ih =>
    have hr := h r (by simp)
    rw [List.length_cons, List.range_succ_eq_map, List.map_cons, List.map_map]
    congr 1
    · simp [← hr]
    · conv_rhs => rw [← ih (fun s hs => h s (by simp [hs]))]
      apply List.map_congr_left
      intro i _
      simp only [Function.comp_apply, List.flatten_cons]
      rw [show (i + 1) * m = r.length + i * m by rw [hr]; ring, ← List.drop_drop, List.drop_left]

/-- C222. `random(n)` raises an exception, for a number of values other than their dimension. -/
theorem delta_random_wrong [DecidableEq K] (rows pts : List (List K)) (d : Nat) (md : Option Nat) (hr : ∀ v ∈ rows, v.length = d)
    (hp : ∀ u ∈ pts, u.length = d) (hne : pts ≠ []) (h : rows.length ≠ d) :
    ∃ b, Delta.create (.mat rows d) md = .ok b ∧ randomEval b.eval b.cardinal pts.length (.mat pts d) = .error .valueError := by
  obtain ⟨b, hb, he⟩ := delta_eval rows pts d md hr hp
  refine ⟨b, hb, ?_⟩
  cases hb
  unfold randomEval
  simp only [he, bind, Except.bind]
  unfold reshapeRows
  rw [flatten_length _ rows.length (by intro r hr'; obtain ⟨u, _, rfl⟩ := List.mem_map.1 hr'; simp), List.length_map, if_neg]
  intro hh
  exact h (Nat.eq_of_mul_eq_mul_left (List.length_pos_of_ne_nil hne) hh)

/-- Witness for `delta_eval` and `delta_random_wrong`: three points of the plane. -/
theorem delta_witness : ∃ b, Delta.create (.mat [[0, 0], [1, 0], [0, (2 : Int)]] 2) none = .ok b ∧
    b.eval (.mat [[1, 0], [5, 0]] 2) = .ok [[0, 1, 0], [0, 0, 0]] ∧ b.cardinal = 2 ∧ b.ndim = 1 ∧
    randomEval b.eval b.cardinal 2 (.mat [[1, 0], [0, 0]] 2) = .error .valueError :=
  ⟨_, rfl, rfl, rfl, rfl, rfl⟩

/-- C223. `eval(x)` for functions applied entrywise to the points: entry `(i, mu)` is the value of the function `mu` at the point `i`. -/
theorem user_eval (hs : List (List K → ℚ)) (pts : List (List K)) (c : Nat) (md di : Option Nat) :
    (UserDefined.create (hs.map (fun f => fun x => .ok ((pointRows x).map f))) md di).eval (.mat pts c) =
      .ok (pts.map (fun u => hs.map (fun f => f u))) := by
  have key : ∀ b : UserDefined K, b.handleFun = hs.map (fun f => fun x => .ok ((pointRows x).map f)) →
      b.eval (.mat pts c) = .ok (pts.map (fun u => hs.map (fun f => f u))) := by
    intro b hb
    unfold UserDefined.eval
    rw [hb]
    have h1 := mapM_ok_of (fun h : NpArr K → Py (List ℚ) => column (nbRows (atleast1d (.mat pts c))) (h (atleast1d (.mat pts c))))
      (fun h => match h (.mat pts c) with | .ok l => l | .error _ => [])
      (hs.map (fun f => fun x => .ok ((pointRows x).map f))) (by
      intro h hh
      obtain ⟨f, _, rfl⟩ := List.mem_map.1 hh
      simp only [column, atleast1d, nbRows, pointRows, bind, Except.bind, List.length_map, if_true])
    rw [h1]
    simp only [bind, Except.bind]
    congr 1
    unfold ofColumns
    simp only [atleast1d, nbRows, pointRows, List.map_map]
    apply List.ext_getElem
    · simp
    · intro i i1 i2
      have hi : i < pts.length := by simpa using i2
      simp [List.getElem?_eq_getElem hi]
  unfold UserDefined.create
  split <;> exact key _ rfl

/-- C223. The same for numbers. -/
theorem user_eval_numbers (hs : List (K → ℚ)) (pts : List K) (md di : Option Nat) :
    (UserDefined.create (hs.map (fun f => fun x => .ok ((pointRows x).flatten.map f))) md di).eval (.vec pts) =
      .ok (pts.map (fun u => hs.map (fun f => f u))) := by
  have hfl : (pointRows (.vec pts)).flatten = pts := by
    simp [pointRows, List.flatten_eq_flatMap, List.flatMap_map]
  have key : ∀ b : UserDefined K, b.handleFun = hs.map (fun f => fun x => .ok ((pointRows x).flatten.map f)) →
      b.eval (.vec pts) = .ok (pts.map (fun u => hs.map (fun f => f u))) := by
    intro b hb
    unfold UserDefined.eval
    rw [hb]
    have h1 := mapM_ok_of (fun h : NpArr K → Py (List ℚ) => column (nbRows (atleast1d (.vec pts))) (h (atleast1d (.vec pts))))
      (fun h => match h (.vec pts) with | .ok l => l | .error _ => [])
      (hs.map (fun f => fun x => .ok ((pointRows x).flatten.map f))) (by
      intro h hh
      obtain ⟨f, _, rfl⟩ := List.mem_map.1 hh
      simp only [column, atleast1d, nbRows, hfl, bind, Except.bind, List.length_map, if_true])
    rw [h1]
    simp only [bind, Except.bind]
    congr 1
    unfold ofColumns
    simp only [atleast1d, nbRows, List.map_map]
    apply List.ext_getElem
    · simp
    · intro i i1 i2
      have hi : i < pts.length := by simpa using i2
      simp only [List.getElem_map, List.getElem_range]
      apply List.map_congr_left
      intro f _
      simp only [Function.comp_apply, hfl]
      simp [List.getElem?_eq_getElem hi]
  unfold UserDefined.create
  split <;> exact key _ rfl

/-- C223. A function returning one number is a constant function of the basis. -/
theorem user_constant (a : ℚ) (pts : List (List K)) (c : Nat) (md di : Option Nat) :
    (UserDefined.create [fun _ => .ok [a]] md di).eval (.mat pts c) = .ok (pts.map (fun _ => [a])) := by
  have key : ∀ b : UserDefined K, b.handleFun = [fun _ => .ok [a]] → b.eval (.mat pts c) = .ok (pts.map (fun _ => [a])) := by
    intro b hb
    unfold UserDefined.eval
    rw [hb]
    have hc : column (nbRows (atleast1d (.mat pts c))) (.ok [a]) = .ok (List.replicate pts.length a) := by
      have hn : nbRows (atleast1d (.mat pts c)) = pts.length := rfl
      rw [hn]
      simp only [column, bind, Except.bind]
      by_cases h : [a].length = pts.length
      · rw [if_pos h, ← h]; rfl
      · rw [if_neg h]
    rw [List.mapM_cons, List.mapM_nil, hc]
    simp only [bind, Except.bind, pure, Except.pure]
    congr 1
    unfold ofColumns
    apply List.ext_getElem
    · simp [atleast1d, nbRows]
    · intro i i1 i2
      have hi : i < pts.length := by simpa using i2
      simp [hi]
  unfold UserDefined.create
  split <;> exact key _ rfl

/-- C223. A function whose array does not have one entry per point is refused. -/
theorem user_refused (h : NpArr K → Py (List ℚ)) (hs : List (NpArr K → Py (List ℚ))) (x : NpArr K) (l : List ℚ)
    (hl : h (atleast1d x) = .ok l) (h1 : l.length ≠ nbRows (atleast1d x)) (h2 : l.length ≠ 1) (md di : Option Nat) :
    (UserDefined.create (h :: hs) md di).eval x = .error .valueError := by
  have key : ∀ b : UserDefined K, b.handleFun = h :: hs → b.eval x = .error .valueError := by
    intro b hb
    unfold UserDefined.eval
    have hc : column (nbRows (atleast1d x)) (h (atleast1d x)) = .error .valueError := by
      rw [hl]
      simp only [column, bind, Except.bind]
      rw [if_neg h1]
      split
      · simp at h2
      · rfl
    rw [hb, List.mapM_cons, hc]; rfl
  unfold UserDefined.create
  split <;> exact key _ rfl

/-- C223. `cardinal()` is the number of functions; `ndim()` is `input_dim`, or the dimension of the measure, or one. -/
theorem user_attributes (hs : List (NpArr K → Py (List ℚ))) (md di : Option Nat) :
    (UserDefined.create hs md di).cardinal = hs.length ∧ (UserDefined.create hs md di).inputDim = di.getD (md.getD 1) := by
  cases di <;> cases md <;> exact ⟨rfl, rfl⟩

/-- C223. `random(n)`: the values of the functions at the points of the sample, and the sample. -/
theorem user_random (hs : List (List K → ℚ)) (pts : List (List K)) (c : Nat) (md di : Option Nat)
    (b : UserDefined K) (hb : b = UserDefined.create (hs.map (fun f => fun x => .ok ((pointRows x).map f))) md di) :
    randomEval b.eval b.cardinal pts.length (.mat pts c) = .ok (pts.map (fun u => hs.map (fun f => f u)), .mat pts c) := by
  have h1 := user_eval hs pts c md di
  rw [← hb] at h1
  have h2 : b.cardinal = hs.length := by rw [hb, (user_attributes _ md di).1, List.length_map]
  unfold randomEval
  rw [h1, h2]
  have := reshape_same (pts.map (fun u => hs.map (fun f => f u))) hs.length (by
    intro r hr; obtain ⟨u, _, rfl⟩ := List.mem_map.1 hr; simp)
  rw [List.length_map] at this
  simp only [bind, Except.bind, this]

/-- Witness: a constant and a coordinate. -/
example : (UserDefined.create [fun _ => .ok [7], fun x => .ok ((pointRows x).map (fun u => u.getD 0 0))] none none).eval
    (.mat [[1, 2], [3, 4]] 2) = .ok [[7, 1], [7, (3 : ℚ)]] := rfl

end Verif.ExplicitBases
