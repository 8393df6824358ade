/-
Model of the activation quantizers that are used inside the frameworks: in the search for mixed precision,
in shift negative correction and in activation bias correction.

Sources (under /repo/model_compression_toolkit/core):
  pytorch/quantizer/fake_quant_builder.py, pytorch/quantizer/lut_fake_quant.py
  keras/quantizer/fake_quant_builder.py, keras/quantizer/lut_fake_quant.py
  common/quantization/quantizers/uniform_quantizers.py 24-29
  common/quantization/node_quantization_config.py 155-172

Tensors are quantized element by element, so the functions are modelled on one element.  Numbers are
elements of an ordered field: rounding errors, overflow and NaN are not modelled.  An exception, or a result
that is `None` or NaN, is `none`.  The two operations of the frameworks are modelled after their documentation
and implementation: `torch.fake_quantize_per_tensor_affine` and
`tf.quantization.fake_quant_with_min_max_vars`.
-/
import Verif.Quant.Model
import Verif.Search.Model

namespace MCT.ActQ
open MCT.Quant MCT.Search

variable {K : Type} [Field K] [LinearOrder K] [FloorRing K]

/-- The dictionary of quantization parameters of an activation; `d.get(k)` of an absent key is `None`. -/
structure Params (K : Type) where
  threshold : Option K := none
  signed : Option Bool := none
  rangeMin : Option K := none
  rangeMax : Option K := none
  lut : Option (List K) := none

/-- `threshold_is_power_of_two` with `per_channel=False`, uniform_quantizers.py 29: `log2` is an integer.
A threshold that is not positive has no logarithm, and is rejected. -/
def isPowerOfTwo (t : K) : Bool := decide ((2 : K) ^ Int.log 2 t = t)

/-! ### PyTorch -/

/-- `torch.fake_quantize_per_tensor_affine`:
`(min(quant_max, max(quant_min, nearbyint(x / scale) + zero_point)) - zero_point) * scale`. -/
def torchFakeQuant (x scale : K) (zeroPoint lo hi : ℤ) : K :=
  ((min hi (max lo (npRound (x / scale) + zeroPoint)) - zeroPoint : ℤ) : K) * scale

/-- `get_symmetric_quantization_range_and_scale`, pytorch fake_quant_builder.py 35-61, for at least one
bit. -/
def torchRange (signed : Bool) (n : ℕ) (t : K) : ℤ × ℤ × K :=
  if signed then (-2 ^ (n - 1), 2 ^ (n - 1) - 1, t / 2 ^ (n - 1))
  else (0, 2 ^ n - 1, t / 2 ^ n)

/-- `symmetric_quantization`, pytorch fake_quant_builder.py 89-112. -/
def torchSymmetric (n : ℕ) (p : Params K) (x : K) : Option K :=
  match p.threshold, p.signed with
  | some t, some s =>
    let r := torchRange s n t
    some (torchFakeQuant x r.2.2 0 r.1 r.2.1)
  | _, _ => none

/-- `power_of_two_quantization`, pytorch fake_quant_builder.py 63-86. -/
def torchPot (n : ℕ) (p : Params K) (x : K) : Option K :=
  match p.threshold, p.signed with
  | some t, some s =>
    if isPowerOfTwo t then
      let r := torchRange s n t
      some (torchFakeQuant x r.2.2 0 r.1 r.2.1)
    else none
  | _, _ => none

/-- `uniform_quantization`, pytorch fake_quant_builder.py 115-143; an empty range divides by zero. -/
def torchUniform (n : ℕ) (p : Params K) (x : K) : Option K :=
  match p.rangeMin, p.rangeMax with
  | some a, some b =>
    let a1 := if a > 0 then 0 else a
    let b1 := if b < 0 then 0 else b
    if a1 = b1 ∨ n = 0 then none
    else
      let ab := fixRange a1 b1 n
      let scale := (ab.2 - ab.1) / (2 ^ n - 1)
      some (torchFakeQuant x scale (-npRound (ab.1 / scale)) 0 (2 ^ n - 1))
  | _, _ => none

/-! ### Keras -/

/-- Rounding of halves upwards, `std::floor(x + 0.5)`, and `std::round` of numbers that are not negative. -/
def tfRound (x : K) : ℤ := ⌊x + 1 / 2⌋

/-- `tf.quantization.fake_quant_with_min_max_vars`: the range is moved so that it contains zero exactly
(`Nudge` in fake_quant_ops_functor.h), then the input is clipped and rounded to the grid.  Numbers of bits
outside 2, ..., 16 are an error, and so is `max < min`; an empty range that is not at zero gives NaN. -/
def tfFakeQuant (x lo hi : K) (n : ℕ) : Option K :=
  if n < 2 ∨ 16 < n then none
  else if lo = 0 ∧ hi = 0 then some 0
  else if hi ≤ lo then none
  else
    let qmax : K := 2 ^ n - 1
    let scale := (hi - lo) / qmax
    let zp := 0 - lo / scale
    let z : ℤ := if zp < 0 then 0 else if zp > qmax then 2 ^ n - 1 else tfRound zp
    let nlo := (0 - (z : K)) * scale
    let nhi := (qmax - (z : K)) * scale
    let c := min (max x nlo) nhi
    some ((tfRound ((c - nlo) / scale) : K) * scale + nlo)

/-- `quantizer_min_max_calculator`, keras fake_quant_builder.py 39-63. -/
def kerasRange (t : K) (n : ℕ) (signed : Bool) : K × K :=
  if signed then (-t, t - t / 2 ^ (n - 1)) else (0, t - t / 2 ^ n)

/-- `symmetric_quantization`, keras fake_quant_builder.py 96-121. -/
def kerasSymmetric (n : ℕ) (p : Params K) (x : K) : Option K :=
  match p.threshold, p.signed with
  | some t, some s => tfFakeQuant x (kerasRange t n s).1 (kerasRange t n s).2 n
  | _, _ => none

/-- `power_of_two_quantization`, keras fake_quant_builder.py 66-93. -/
def kerasPot (n : ℕ) (p : Params K) (x : K) : Option K :=
  match p.threshold, p.signed with
  | some t, some s =>
    if isPowerOfTwo t then tfFakeQuant x (kerasRange t n s).1 (kerasRange t n s).2 n else none
  | _, _ => none

/-- `uniform_quantization`, keras fake_quant_builder.py 124-144. -/
def kerasUniform (n : ℕ) (p : Params K) (x : K) : Option K :=
  match p.rangeMin, p.rangeMax with
  | some a, some b => tfFakeQuant x a b n
  | _, _ => none

/-! ### Look-up tables -/

/-- `lut_kmeans_quantizer` and `int_quantization_with_threshold` of `PytorchLUTFakeQuant`, pytorch
lut_fake_quant.py 49-115, and of `LUTFakeQuant`, keras lut_fake_quant.py 52-118; both are the same function.
The table has 8 bits (`LUT_VALUES_BITWIDTH`, constants.py), `eps` is `EPS`. -/
def lutQuant (lutBits : ℕ) (eps : K) (p : Params K) (x : K) : Option K :=
  match p.signed, p.lut, p.threshold with
  | some s, some lut, some t =>
    let q := intQuantWithThreshold x t lutBits s eps
    (argminV (lut.map fun c => |q - c|)).bind fun iv => (lut[iv.1]?).map fun c =>
      c / 2 ^ (lutBits - s.toNat) * t
  | _, _, _ => none

end MCT.ActQ
