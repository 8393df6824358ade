import Verif.Search.Props

/-!
# The value that look-up-table quantization compares with the centres

A further statement of C11 and C115 about `int_quantization_with_threshold`
(core/common/quantization/quantizers/quantizers_helpers.py:146-173).
-/

namespace MCT.Search

open MCT.Quant

variable {K : Type} [Field K] [LinearOrder K] [IsStrictOrderedRing K] [FloorRing K]

/-- Specification: `q` is the number of `[lo, hi]` nearest to `y`. -/
def NearestIn (lo hi y q : K) : Prop := (lo ≤ q ∧ q ≤ hi) ∧ ∀ z, lo ≤ z → z ≤ hi → |y - q| ≤ |y - z|

theorem npClip_nearest {lo hi : K} (h : lo ≤ hi) (y : K) : NearestIn lo hi y (npClip y lo hi) := by
  unfold npClip
  rcases le_total y lo with h1 | h1
  · rw [max_eq_right h1, min_eq_left h]
    refine ⟨⟨le_refl _, h⟩, fun z hz _ => ?_⟩
    rw [abs_of_nonpos (by linarith), abs_of_nonpos (by linarith)]; linarith
  · rw [max_eq_left h1]
    rcases le_total y hi with h2 | h2
    · rw [min_eq_left h2]
      exact ⟨⟨h1, h2⟩, fun z _ _ => by simp⟩
    · rw [min_eq_right h2]
      refine ⟨⟨h, le_refl _⟩, fun z _ hz => ?_⟩
      rw [abs_of_nonneg (by linarith), abs_of_nonneg (by linarith)]; linarith

/-- **C11 (scaled value).**  The value compared with the centres is the quotient of the value and the threshold, in
steps of one over `2^(n-1)` (signed) or `2^n` (unsigned), moved to the nearest number of the range of `n` bits:
`[-2^(n-1), 2^(n-1) - 1]` or `[0, 2^n - 1]`. -/
theorem C11_scaled (x t eps : K) (n : ℕ) :
    NearestIn (-(2 ^ (n - 1))) (2 ^ (n - 1) - 1) (x / (t + eps) * 2 ^ (n - 1)) (intQuantWithThreshold x t n true eps) ∧
    NearestIn 0 (2 ^ n - 1) (x / (t + eps) * 2 ^ n) (intQuantWithThreshold x t n false eps) := by
  have h1 : (1 : K) ≤ 2 ^ (n - 1) := one_le_pow₀ (by norm_num)
  have h2 : (1 : K) ≤ 2 ^ n := one_le_pow₀ (by norm_num)
  constructor
  · exact npClip_nearest (by linarith) _
  · exact npClip_nearest (by linarith) _

example : intQuantWithThreshold (3 : ℚ) 2 8 true 0 = 127 ∧ intQuantWithThreshold (-3 : ℚ) 2 8 true 0 = -128 ∧
    intQuantWithThreshold (1 : ℚ) 2 8 true 0 = 64 ∧ intQuantWithThreshold (-1 : ℚ) 2 8 false 0 = 0 := by
  decide +kernel

end MCT.Search
