import Mathlib.Algebra.Order.Floor.Ring
import Mathlib.Algebra.Order.Archimedean.Basic
import Mathlib.Data.Int.Log

/-!
# Model of `core/common/quantization/quantizers/quantizers_helpers.py`

Paths below are relative to `/repo/model_compression_toolkit`.
Numpy functions act pointwise on tensors (after broadcasting), so every function is modelled on one
element; tensors are lists of elements.  Floats are elements of an arbitrary linearly ordered field
with floor (`ℚ` or `ℝ`): rounding errors, overflow and NaN are not modelled, and the places where
numpy would produce NaN because of a division by zero return `none`.
-/

namespace MCT.Quant

variable {K : Type*} [Field K] [LinearOrder K] [FloorRing K]

/-- `np.round`: round to the nearest integer, ties to the even one.
Used at core/common/quantization/quantizers/quantizers_helpers.py:123,190,293. -/
def npRound (x : K) : ℤ :=
  let f := ⌊x⌋
  let d := x - f
  if d < 1 / 2 then f
  else if 1 / 2 < d then f + 1
  else if f % 2 = 0 then f else f + 1

/-- `np.clip(x, a_min, a_max)` = `minimum(maximum(x, a_min), a_max)`.
Used at core/common/quantization/quantizers/quantizers_helpers.py:120,173. -/
def npClip (x a b : K) : K := min (max x a) b

/-- A numpy boolean used as a factor in arithmetic (quantizers_helpers.py:297-298). -/
def b2k (b : Bool) : K := if b then 1 else 0

/-- `fix_range_to_include_zero`
(core/common/quantization/quantizers/quantizers_helpers.py:273-299), one channel.
`range_min = range_max` divides by zero in numpy; callers are guarded in `uniformQuantize`. -/
def fixRange (rmin rmax : K) (n : ℕ) : K × K :=
  let minPositive : Bool := decide (rmin > 0)
  let maxNegative : Bool := decide (rmax < 0)
  let scale := (rmax - rmin) / (2 ^ n - 1)
  let minAdj := scale * (npRound (rmin / scale) : K)
  let maxAdj := rmax - rmin + minAdj
  let mid : Bool := (!minPositive) && (!maxNegative)
  (minAdj * b2k mid + b2k maxNegative * rmin, maxAdj * b2k mid + b2k minPositive * rmax)

/-- `uniform_quantize_tensor`
(core/common/quantization/quantizers/quantizers_helpers.py:96-124), one element.
`none` stands for the NaN numpy produces when the range is empty or there are no bits
(both denominators `2**n_bits - 1` and `scale` vanish only then). -/
def uniformQuantize (x rmin rmax : K) (n : ℕ) : Option K :=
  if rmin = rmax ∨ n = 0 then none
  else
    let ab := fixRange rmin rmax n
    let a := ab.1
    let b := ab.2
    let delta := (b - a) / (2 ^ n - 1)
    let clipped := npClip x a b
    some (delta * (npRound ((clipped - a) / delta) : K) + a)

/-- `calculate_delta`
(core/common/quantization/quantizers/quantizers_helpers.py:44-60).
`n_bits - int(signed)` is a natural number subtraction here, so the model is faithful for
`n_bits ≥ 1`. -/
def calculateDelta (threshold : K) (n : ℕ) (signed : Bool) : K :=
  threshold / 2 ^ (n - signed.toNat)

/-- `quantize_tensor`
(core/common/quantization/quantizers/quantizers_helpers.py:63-93), one element. -/
def quantizeTensor (x threshold : K) (n : ℕ) (signed : Bool) : Option K :=
  let delta := calculateDelta threshold n signed
  let rmin := -threshold * (signed.toNat : K)
  let rmax := threshold - delta
  uniformQuantize x rmin rmax n

/-- `max_power_of_two`
(core/common/quantization/quantizers/quantizers_helpers.py:25-41):
`2 ** ceil(log2(max(x, min_threshold)))`.  `ceil ∘ log2` is the integer upper logarithm. -/
def maxPowerOfTwo (x minThreshold : K) : K :=
  2 ^ (Int.clog 2 (max x minThreshold))

/-- `int_quantization_with_threshold`
(core/common/quantization/quantizers/quantizers_helpers.py:146-173), one element. -/
def intQuantWithThreshold (x threshold : K) (n : ℕ) (signed : Bool) (eps : K) : K :=
  let aMax : K := if signed then 2 ^ (n - 1) - 1 else 2 ^ n - 1
  let aMin : K := if signed then -(2 ^ (n - 1)) else 0
  npClip ((x / (threshold + eps)) * 2 ^ (n - signed.toNat)) aMin aMax

/-- `get_tensor_max`, per-tensor branch
(core/common/quantization/quantizers/quantizers_helpers.py:193-229); the per-channel branch is the
same computation on each channel.  `tmin`/`tmax` are `np.min`/`np.max` of the data.
`n_bits < 1` is rejected by `Logger.critical` (213-214): `none`. -/
def tensorMax (tmin tmax : K) (n : ℕ) (isUniform : Bool) : Option K :=
  if n < 1 then none
  else
    let expansion : K :=
      if isUniform then 1
      else if n = 1 then 0
      else 2 ^ (n - 1) / (2 ^ (n - 1) - 1)
    some (max (-tmin) (tmax * expansion))

end MCT.Quant
