import Verif.Quant.Spec

/-!
# Specification vocabulary for the parameter searches
-/

namespace MCT.SearchSpec

open MCT.QuantSpec

variable {K : Type*} [Field K] [LinearOrder K]

/-- `i` is the first index below `n` at which `E` is minimal. -/
def FirstArgmin {α : Type*} [LT α] [LE α] (E : ℕ → α) (n i : ℕ) : Prop :=
  i < n ∧ (∀ j < n, E i ≤ E j) ∧ ∀ j < i, E i < E j

/-- Every value lies in the representable range `[-t, t - t/2^(n-1)]` of a signed `n`-bit quantizer
with threshold `t`. -/
def Covers (t : K) (n : ℕ) (xs : List K) : Prop :=
  ∀ x ∈ xs, -t ≤ x ∧ x ≤ t - t / 2 ^ (n - 1)

/-- `T` is the least power of two that is at least `lo` and covers the data. -/
def LeastCoveringPow2 (T lo : K) (n : ℕ) (xs : List K) : Prop :=
  (IsPow2 T ∧ lo ≤ T ∧ Covers T n xs) ∧ ∀ t, IsPow2 t → lo ≤ t → Covers t n xs → T ≤ t

end MCT.SearchSpec
