import Verif.Quant.Spec
import Mathlib.Order.Bounds.Basic

/-!
# Specification vocabulary for the statistics collectors
-/

namespace MCT.CollectSpec

variable {K : Type*} [Field K] [LinearOrder K]

/-- All the values observed in channel `c` over a history of batches. -/
def Observed {n : ℕ} (bs : List (Fin n → K × List K)) (c : Fin n) : Set K :=
  {v | ∃ b ∈ bs, v ∈ (b c).1 :: (b c).2}

/-- All the values observed in any channel. -/
def ObservedAny {n : ℕ} (bs : List (Fin n → K × List K)) : Set K := {v | ∃ c, v ∈ Observed bs c}

/-- All the values of channel `c`, as a list (with repetitions). -/
def valuesOf {n : ℕ} (bs : List (Fin n → K × List K)) (c : Fin n) : List K :=
  bs.flatMap fun b => (b c).1 :: (b c).2

/-- The arithmetic mean of a list. -/
def mean (l : List K) : K := l.sum / (l.length : K)

/-- Apply a function to every value of a batch. -/
def mapBatch {n : ℕ} (f : K → K) (b : Fin n → K × List K) : Fin n → K × List K :=
  fun c => (f (b c).1, (b c).2.map f)

end MCT.CollectSpec
