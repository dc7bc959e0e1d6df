import Verif.Props.TreeKron

/-!
# Concrete tree-based tensors: hypotheses that are met, and disagreements of the code with the dense operations
-/

namespace Verif.TreeBased

open Verif.Arr Verif.DimTree

/-- The same tree and shape as `exT`, with other ranks and with the leaf of dimension 1 active. -/
def exU : TBT Int where
  tree := exTree
  tensors := fun i => match i with
    | 1 => ⟨[2, 3], fun t => t.getD 0 0 - t.getD 1 0⟩
    | 2 => ⟨[1, 2, 2], fun t => t.getD 0 0 + t.getD 1 0 - t.getD 2 0⟩
    | 3 => ⟨[3, 1], fun t => 2 + t.getD 0 0⟩
    | 4 => ⟨[2, 2], fun t => 3 * t.getD 0 0 + t.getD 1 0 + 1⟩
    | 5 => ⟨[2, 3], fun t => t.getD 0 0 * t.getD 1 0 - 1⟩
    | _ => ⟨[0], fun _ => 0⟩

theorem exU_wf : WF exU := wf_of_wfB _ exTree_valid (by decide +kernel)

/-- A tensor with the same active nodes as `exT` and other ranks. -/
def exW : TBT Int where
  tree := exTree
  tensors := fun i => match i with
    | 1 => ⟨[2, 3], fun t => t.getD 0 0 - t.getD 1 0⟩
    | 2 => ⟨[1, 2, 2], fun t => t.getD 0 0 + t.getD 1 0 - t.getD 2 0⟩
    | 3 => ⟨[3, 1], fun t => 2 + t.getD 0 0⟩
    | 5 => ⟨[2, 3], fun t => t.getD 0 0 * t.getD 1 0 - 1⟩
    | _ => ⟨[0], fun _ => 0⟩

theorem exW_wf : WF exW := wf_of_wfB _ exTree_valid (by decide +kernel)

theorem exTree_root {r : Nat} (h : IsRoot exTree r) : r = 1 := by
  have h1 : IsRoot exTree 1 := (parent_eq_zero ⟨by decide, by decide⟩).1 (by decide +kernel)
  exact root_unique exTree_valid h h1

/-- The hypotheses of `add_same` and of `mul_full` are met by tensors with different ranks. -/
theorem exT_compat : Compat exT exW := by
  refine ⟨rfl, ?_, by decide +kernel, ?_⟩
  · intro i hi
    have : i ∈ exTree.nodes := (mem_nodes i).2 hi
    have hall : ∀ i ∈ exTree.nodes, exW.active i = exT.active i := by decide +kernel
    exact hall i this
  · intro r hr
    rw [exTree_root hr]; decide +kernel

/-- The hypotheses of `add_full` are met by tensors whose active nodes differ. -/
theorem exT_addable : Addable exT exU :=
  ⟨rfl, by decide +kernel, fun r hr => by rw [exTree_root hr]; decide +kernel⟩

/-- The entry at `idx` and the shape of the full tensor of a result. -/
def entry (r : Py (TBT Int)) (idx : List Nat) : Option (List Nat × Int) :=
  match r with
  | .ok z => fullAt z idx
  | .error _ => none

example : entry (.ok exT) [2, 1, 1] = some ([3, 2, 2], 29) ∧ entry (.ok exU) [2, 1, 1] = some ([3, 2, 2], -8) ∧
    entry (add exT exU) [2, 1, 1] = some ([3, 2, 2], 21) := by decide +kernel

/-- C37: the elementwise product and the Kronecker product ignore the matrix of a leaf that is active in the second
factor and inactive in the first one: the code returns a result without an error, and it is wrong. -/
theorem mul_wrong : WF exT ∧ WF exU ∧ Addable exT exU ∧
    entry (.ok exT) [0, 0, 1] = some ([3, 2, 2], 10) ∧ entry (.ok exU) [0, 0, 1] = some ([3, 2, 2], -4) ∧
    entry (mul exT exU) [0, 0, 1] = some ([3, 2, 2], 40) :=
  ⟨exT_wf, exU_wf, exT_addable, by decide +kernel, by decide +kernel, by decide +kernel⟩

/-- In the other order the same product is refused. -/
theorem mul_wrong_swapped : (match mul exU exT with | .ok _ => false | .error e => decide (e = .valueError)) = true := by
  decide +kernel

/-- Two dimensions; the leaf of dimension 0 is the node 2, that of dimension 1 the node 3. -/
def numA : TBT Int where
  tree := ofParents [0, 0, 0] [2, 3]
  tensors := fun i => match i with
    | 1 => ⟨[1, 1], fun _ => 1⟩
    | 2 => ⟨[2, 1], fun t => if t.getD 0 0 = 0 then 1 else 0⟩
    | 3 => ⟨[2, 1], fun t => if t.getD 0 0 = 0 then 1 else 0⟩
    | _ => ⟨[0], fun _ => 0⟩

/-- The same tree with the numbers of the leaves exchanged. -/
def numB : TBT Int where
  tree := ofParents [0, 0, 0] [3, 2]
  tensors := fun i => match i with
    | 1 => ⟨[1, 1], fun _ => 1⟩
    | 2 => ⟨[2, 1], fun t => if t.getD 0 0 = 0 then 1 else 0⟩
    | 3 => ⟨[2, 1], fun t => if t.getD 0 0 = 1 then 1 else 0⟩
    | _ => ⟨[0], fun _ => 0⟩

/-- C35: trees that compare equal may number their nodes differently; the sum then adds tensors of different nodes,
without an error. Entry (0, 1) is 0 in both terms and 1 in the sum. -/
theorem add_numbering_wrong : WF numA ∧ WF numB ∧
    (match numA.tree.eq numB.tree with | .ok b => b | .error _ => false) = true ∧ numA.shape = numB.shape ∧
    entry (.ok numA) [0, 1] = some ([2, 2], 0) ∧ entry (.ok numB) [0, 1] = some ([2, 2], 0) ∧
    entry (add numA numB) [0, 1] = some ([2, 2], 1) :=
  ⟨wf_of_wfB _ (ofParents_valid _ _ (by decide) (by decide) (by decide) (by decide) (by decide)) (by decide +kernel),
   wf_of_wfB _ (ofParents_valid _ _ (by decide) (by decide) (by decide) (by decide) (by decide)) (by decide +kernel),
   by decide +kernel, by decide +kernel, by decide +kernel, by decide +kernel, by decide +kernel⟩

end Verif.TreeBased
