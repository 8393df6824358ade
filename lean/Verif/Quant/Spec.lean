import Mathlib.Algebra.Order.Field.Basic

/-!
# Specification vocabulary for quantization grids

Independent of the model: what a uniform grid, the two's-complement grid and a nearest point are.
-/

namespace MCT.QuantSpec

variable {K : Type*} [Field K] [LinearOrder K]

/-- The points of the uniform `n`-bit grid with lowest point `a` and highest point `b`:
`2^n` points, equally spaced. -/
def UniformGrid (a b : K) (n : ℕ) : Set K :=
  {y | ∃ k : ℕ, k ≤ 2 ^ n - 1 ∧ y = a + (k : K) * ((b - a) / (2 ^ n - 1))}

/-- Grid of a signed `n`-bit integer with full scale `t`: `k * t / 2^(n-1)`,
`-2^(n-1) ≤ k ≤ 2^(n-1) - 1`. -/
def SignedGrid (t : K) (n : ℕ) : Set K :=
  {y | ∃ k : ℤ, -(2 ^ (n - 1)) ≤ k ∧ k ≤ 2 ^ (n - 1) - 1 ∧ y = (k : K) * (t / 2 ^ (n - 1))}

/-- Grid of an unsigned `n`-bit integer with full scale `t`: `k * t / 2^n`, `0 ≤ k ≤ 2^n - 1`. -/
def UnsignedGrid (t : K) (n : ℕ) : Set K :=
  {y | ∃ k : ℤ, 0 ≤ k ∧ k ≤ 2 ^ n - 1 ∧ y = (k : K) * (t / 2 ^ n)}

/-- `y` is a point of `G` and no point of `G` is nearer to `x`. -/
def Nearest (G : Set K) (x y : K) : Prop :=
  y ∈ G ∧ ∀ z ∈ G, |y - x| ≤ |z - x|

/-- A positive power of two (with an integer, possibly negative, exponent). -/
def IsPow2 (t : K) : Prop := ∃ k : ℤ, t = 2 ^ k

end MCT.QuantSpec
