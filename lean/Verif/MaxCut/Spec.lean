import Verif.MaxCut.Model

/-! # Vocabulary of the max-cut properties (C27, C28, C65) -/

namespace MCT.MaxCutSpec
open MCT.MaxCut

variable {K : Type} [Field K] [LinearOrder K] [IsStrictOrderedRing K]

/-- The memory graph of a model: at least one operation, every operation writes a tensor, every tensor is
written by one operation, operations are numbered so that they read tensors of earlier operations, and
sizes are not negative. -/
structure WF (g : MemGraph K) : Prop where
  pos : 0 < g.n
  outs : ∀ i < g.n, g.outs i ≠ []
  single : ∀ i < g.n, ∀ j < g.n, ∀ t, t ∈ g.outs i → t ∈ g.outs j → i = j
  ins : ∀ j < g.n, ∀ t ∈ g.ins j, ∃ i < j, t ∈ g.outs i
  size : ∀ t, 0 ≤ g.size t

/-- A schedule runs every operation once, after the operations whose tensors it reads. -/
def IsSchedule (g : MemGraph K) (σ : List ℕ) : Prop :=
  σ.Perm (List.range g.n) ∧
    ∀ pre i post, σ = pre ++ i :: post → ∀ t ∈ g.ins i, ∃ j ∈ pre, t ∈ g.outs j

/-- Tensor `t` is in memory while operation `i` runs after the operations `pre`: it has been written, and it
is written by `i`, or it is an output of the model, or an operation that has not run before reads it. -/
def Live (g : MemGraph K) (pre : List ℕ) (i t : ℕ) : Prop :=
  (t ∈ g.outs i ∨ ∃ j ∈ pre, t ∈ g.outs j) ∧
    (t ∈ g.outs i ∨ (∀ c < g.n, t ∉ g.ins c) ∨ ∃ c < g.n, t ∈ g.ins c ∧ c ∉ pre)

instance (g : MemGraph K) (pre : List ℕ) (i t : ℕ) : Decidable (Live g pre i t) := by
  unfold Live; infer_instance

/-- Memory while `i` runs after `pre`. -/
def liveMem (g : MemGraph K) (pre : List ℕ) (i : ℕ) : K :=
  ((((List.range g.n).flatMap g.outs).dedup.filter fun t => decide (Live g pre i t)).map g.size).sum

/-- `c` is the largest memory over the steps of schedule `σ`. -/
def IsPeak (g : MemGraph K) (σ : List ℕ) (c : K) : Prop :=
  (∀ pre i post, σ = pre ++ i :: post → liveMem g pre i ≤ c) ∧
    ∃ pre i post, σ = pre ++ i :: post ∧ c = liveMem g pre i

/-- The cuts returned with a schedule: for every step there is one with the tensors in memory at that step and
nothing else. -/
def CoversSteps (g : MemGraph K) (σ : List ℕ) (cuts : List (Cut K)) : Prop :=
  ∀ pre i post, σ = pre ++ i :: post →
    ∃ c ∈ cuts, (∀ x, x ∈ c.mem ↔ ∃ t, x = Ten.real t ∧ Live g pre i t) ∧ c.total = liveMem g pre i

/-- `pick` chooses from the open list a cut with the smallest `max(cost, estimate)` and, among these, one
with the longest route; ties are resolved arbitrarily. -/
def Chooses (est : K) (pick : ℕ → List (Entry K) → Option (ℕ × Entry K)) : Prop :=
  ∀ k l, (l = [] → pick k l = none) ∧
    (l ≠ [] → ∃ i e, pick k l = some (i, e) ∧ l[i]? = some e ∧
      ∀ e' ∈ l, max e.cost est < max e'.cost est ∨
        (max e.cost est = max e'.cost est ∧ e'.route.length ≤ e.route.length))

/-- Memory needed by operation `i` alone: what it reads and what it writes. -/
def ownMem (g : MemGraph K) (i : ℕ) : K :=
  ((g.outs i).dedup.map g.size).sum + (if g.isInput i then 0 else ((g.ins i).dedup.map g.size).sum)

/-- Size of all tensors together. -/
def totalMem (g : MemGraph K) : K := (((List.range g.n).flatMap g.outs).dedup.map g.size).sum

end MCT.MaxCutSpec
