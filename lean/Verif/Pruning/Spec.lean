import Verif.Pruning.Model

/-! # Vocabulary of the pruning properties (C40–C43, C59–C63) -/

namespace MCT.PruningSpec

/-- The groups of each of the `N` layers partition its channels `0 … nch-1`, and there is a first group. -/
def Partition (N : ℕ) (groups : ℕ → List (List ℕ)) (nch : ℕ → ℕ) : Prop :=
  ∀ i < N, groups i ≠ [] ∧ (groups i).flatten.Perm (List.range (nch i))

/-- Channel `c` of layer `i` is kept. -/
def Keeps (mask : ℕ → List Bool) (i c : ℕ) : Prop := (mask i)[c]? = some true

/-- A mask that keeps, in layer `i`, exactly the channels of the first `k i` groups. -/
def KeepsGroups (N : ℕ) (groups : ℕ → List (List ℕ)) (nch : ℕ → ℕ) (mask : ℕ → List Bool)
    (k : ℕ → ℕ) : Prop :=
  ∀ i < N, (mask i).length = nch i ∧
    ∀ c < nch i, Keeps mask i c ↔ ∃ g < k i, c ∈ (groups i).getD g []

end MCT.PruningSpec
