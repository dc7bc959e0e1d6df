import Verif.Np.Arr

/-! Small specification vocabulary for the tensor properties (not a model of the code). -/

namespace Verif

/-- The index tuple `idx` with the entries at the positions `dims` replaced by those of `s`. -/
def subst (idx dims s : List Nat) : List Nat :=
  (List.range idx.length).map (fun k => if k ∈ dims then s.getD (dims.idxOf k) 0 else idx.getD k 0)

/-- The entries of `idx` at the positions `dims`, in the order of `dims`. -/
def entriesAt (dims idx : List Nat) : List Nat := dims.map (fun k => idx.getD k 0)

/-- The entries of `idx` at the positions not in `dims`, in increasing order of positions. -/
def entriesOff (dims idx : List Nat) : List Nat :=
  ((List.range idx.length).filter (fun k => k ∉ dims)).map (fun k => idx.getD k 0)

end Verif
