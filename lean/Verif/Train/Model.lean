/-
The trainable weight and activation quantizers of GPTQ and QAT, one element at a time.

Paths are relative to /repo/model_compression_toolkit; symmetric_soft_quantizer.py and
uniform_soft_quantizer.py are those of gptq/pytorch/quantizer/soft_rounding and
gptq/keras/quantizer/soft_rounding.
The straight-through operators (`ste_round`, `ste_clip`, `ste_floor`, `grad_scale`) change gradients only:
their value is that of the operator they wrap.  Tensors are broadcast along the channel axis, so that every
function is given the parameters of the channel of its element.
-/
import Verif.Quant.Lemmas
import Verif.Quant.Spec
import Mathlib.Analysis.SpecialFunctions.Log.Basic

namespace MCT.Train
open MCT.Quant

set_option linter.unusedSectionVars false
set_option linter.unusedVariables false

variable {K : Type} [Field K] [LinearOrder K] [FloorRing K]

/-! ### Soft rounding -/

/-- `SOFT_ROUNDING_GAMMA`, gptq_constants.py 21. -/
noncomputable def gamma : ℝ := -(1 / 10)
/-- `SOFT_ROUNDING_ZETA`, gptq_constants.py 22. -/
noncomputable def zeta : ℝ := 11 / 10

/-- The logistic function, `torch.sigmoid`. -/
noncomputable def sigmoid (x : ℝ) : ℝ := 1 / (1 + Real.exp (-x))

/-- `get_soft_targets`, symmetric_soft_quantizer.py 154-163 (PyTorch), 164-173 (Keras) and the same in the
uniform quantizers, uniform_soft_quantizer.py 135-144 (PyTorch), 156-165 (Keras): the stretched sigmoid of the trained variable, clipped to `[0, 1]`. -/
noncomputable def softTarget (α : ℝ) : ℝ := npClip (sigmoid α * (zeta - gamma) + gamma) 0 1

/-- `aux_var >= 0.5` at inference, symmetric_soft_quantizer.py 206-207 (PyTorch), 195-196 (Keras). -/
def hardTarget (st : K) : K := if 1 / 2 ≤ st then 1 else 0

/-- The lowest code, `-int(signed) * 2 ** (num_bits - int(signed))`, gptq/pytorch/quantizer/ste_rounding/
symmetric_ste.py 66. -/
def minInt (n : ℕ) (signed : Bool) : K := -((signed.toNat : K) * 2 ^ (n - signed.toNat))
/-- The highest code, `2 ** (num_bits - int(signed)) - 1`, gptq/pytorch/quantizer/ste_rounding/
symmetric_ste.py 67. -/
def maxInt (n : ℕ) (signed : Bool) : K := 2 ^ (n - signed.toNat) - 1

/-- `power_of_two_max` on the threshold when the quantizer is power-of-two,
gptq/pytorch/quantizer/quant_utils.py 20-24, gptq/keras/quantizer/quant_utils.py 65-71 and symmetric_soft_quantizer.py 58-59. -/
def effThreshold (t : K) (pot : Bool) (minT : K) : K := if pot then maxPowerOfTwo t minT else t

/-- `soft_rounding_symmetric_quantizer`, symmetric_soft_quantizer.py 38-68 (PyTorch),
37-66 (Keras). -/
def softSym (x aux t : K) (n : ℕ) (signed pot : Bool) (minT : K) : K :=
  let delta := calculateDelta (effThreshold t pot minT) n signed
  delta * npClip ((⌊x / delta⌋ : K) + aux) (minInt n signed) (maxInt n signed)

/-- The learned scale made positive, symmetric_soft_quantizer.py 181, 231, 244 (PyTorch), 220, 233, 257
(Keras). -/
def posScale (s minT : K) : K := if s ≤ 0 then minT else s

/-- Settings of a symmetric soft-rounding quantizer, symmetric_soft_quantizer.py 79-108. -/
structure SymCfg (K : Type) where
  n : ℕ
  pot : Bool
  learning : Bool
  minT : K

/-- `SymmetricSoftRoundingGPTQ.__call__`, symmetric_soft_quantizer.py 186-247 (PyTorch), 175-236
(Keras): the soft targets `st` are
made hard unless training, and the learned scale multiplies the result. -/
def symCall (c : SymCfg K) (training : Bool) (x st t s : K) : K :=
  let aux := if training then st else hardTarget st
  let q := softSym x aux t c.n true c.pot c.minT
  if c.learning && !c.pot then q * posScale s c.minT else q

/-- `SymmetricSoftRoundingGPTQ.get_quant_config`, symmetric_soft_quantizer.py 165-184 (PyTorch),
238-261 (Keras): the threshold recorded for the layer after training. -/
def symExport (c : SymCfg K) (t s : K) : K :=
  if c.pot then maxPowerOfTwo t c.minT
  else if c.learning then t * posScale s c.minT
  else t

/-- `soft_rounding_unifrom_quantizer`, uniform_soft_quantizer.py 37-62 (PyTorch), 36-61 (Keras);
`fix_range_to_include_zero` of gptq/pytorch/quantizer/quant_utils.py 83-109 is that of quantizers_helpers.py. -/
def softUni (x aux rmin rmax : K) (n : ℕ) : K :=
  let ab := fixRange rmin rmax n
  let delta := (ab.2 - ab.1) / (2 ^ n - 1)
  delta * npClip ((⌊(x - ab.1) / delta⌋ : K) + aux) 0 (2 ^ n - 1) + ab.1

/-- `UniformSoftRoundingGPTQ.__call__`, uniform_soft_quantizer.py 160-193 (PyTorch), 167-212 (Keras). -/
def uniCall (n : ℕ) (training : Bool) (x st rmin rmax : K) : K :=
  softUni x (if training then st else hardTarget st) rmin rmax n

/-! #### The initial value of the trained variable -/

/-- `rest` of the PyTorch symmetric quantizer, symmetric_soft_quantizer.py 130-133. -/
def restSymTorch (w t : K) (n : ℕ) : K :=
  let c := npClip (w / calculateDelta t n true) (-(2 ^ (n - 1))) (2 ^ (n - 1) - 1)
  c - ⌊c⌋

/-- `rest` of the Keras symmetric quantizer, symmetric_soft_quantizer.py 143-145. -/
def restSymKeras (w t : K) (n : ℕ) : K :=
  w / calculateDelta t n true - ⌊w / calculateDelta t n true⌋

/-- `rest` of the PyTorch uniform quantizer, uniform_soft_quantizer.py 124-126: with the range as given,
not the one adjusted to include zero. -/
def restUniTorch (w rmin rmax : K) (n : ℕ) : K :=
  let c := npClip ((w - rmin) / ((rmax - rmin) / (2 ^ n - 1))) 0 (2 ^ n - 1)
  c - ⌊c⌋

/-- `qutils.clip(x, max_val, min_val)` of Keras, gptq/keras/quantizer/quant_utils.py 108-119: the upper
bound is the first of the two. -/
def clipKeras (x maxVal minVal : K) : K := min (max x minVal) maxVal

/-- `rest` of the Keras uniform quantizer, uniform_soft_quantizer.py 145-147, which calls
`clip((w - min) / delta, 0, 2 ** num_bits - 1)`. -/
def restUniKeras (w rmin rmax : K) (n : ℕ) : K :=
  let c := clipKeras ((w - rmin) / ((rmax - rmin) / (2 ^ n - 1))) 0 (2 ^ n - 1)
  c - ⌊c⌋

/-- The initial value of the trained variable, symmetric_soft_quantizer.py 136 and uniform_soft_quantizer.py
127 (PyTorch). -/
noncomputable def initTorch (rest : ℝ) : ℝ := -Real.log ((zeta - gamma) / (rest - gamma) - 1)

/-- The same with `safe_log`, gptq/keras/quantizer/quant_utils.py 37-47, symmetric_soft_quantizer.py 148 and
uniform_soft_quantizer.py 148 (Keras). -/
noncomputable def initKeras (rest : ℝ) : ℝ :=
  -Real.log (max ((zeta - gamma) / (rest - gamma) - 1) (1 / 10 ^ 16))

/-! ### Straight-through rounding in GPTQ -/

/-- `pertubation_symmetric_quantizer`, gptq/pytorch/quantizer/ste_rounding/symmetric_ste.py 37-74 and
gptq/keras/quantizer/ste_rounding/symmetric_ste.py 36-67. PyTorch rounds a second time, which changes
nothing. -/
def steSym (x aux t : K) (n : ℕ) (signed pot : Bool) (minT : K) (lsb : ℕ) : K :=
  let delta := calculateDelta (effThreshold t pot minT) n signed
  let change := npClip aux (-(delta * lsb)) (delta * lsb) / delta
  let code : ℤ := npRound ((npRound (x / delta) : K) + change)
  delta * npClip (code : K) (minInt n signed) (maxInt n signed)

/-- `MAX_LSB_CHANGE`, gptq_constants.py 18. -/
def maxLsbChange : ℕ := 1

/-- `STEWeightGPTQQuantizer.__call__`, symmetric_ste.py 145-181 (PyTorch), 132-168 (Keras): the configured number of steps is passed on per channel
only, a quantizer per tensor uses the default. -/
def steCall (n : ℕ) (pot : Bool) (minT : K) (perChannel : Bool) (lsb : ℕ) (x aux t : K) : K :=
  steSym x aux t n true pot minT (if perChannel then lsb else maxLsbChange)

/-- The weights of one channel with the trained variables of Keras, of the shape of the weights
(gptq/keras/quantizer/ste_rounding/symmetric_ste.py 121-126). -/
def steChannelKeras (n : ℕ) (pot : Bool) (minT : K) (lsb : ℕ) (t : K) (xs auxs : List K) : List K :=
  List.zipWith (fun x a => steCall n pot minT true lsb x a t) xs auxs

/-- The weights of one channel with the trained variable of PyTorch, of the shape of the thresholds
(gptq/pytorch/quantizer/ste_rounding/symmetric_ste.py 125-126): one for the channel. -/
def steChannelTorch (n : ℕ) (pot : Bool) (minT : K) (lsb : ℕ) (t : K) (xs : List K) (aux : K) : List K :=
  xs.map (fun x => steCall n pot minT true lsb x aux t)

/-! ### QAT -/

/-- The symmetric quantizers of trainable_infrastructure/pytorch/quantizer_utils.py 95-129
(`symmetric_quantizer`) and 167-194 (`symmetric_lsq_quantizer`), and of
qat/pytorch/quantizer/ste_rounding/symmetric_ste.py 94-108: divide, round, clip, multiply. `grad_scale`
has the value of its argument. -/
def symTrain (x t : K) (n : ℕ) (signed : Bool) : K :=
  let delta := t / 2 ^ (n - signed.toNat)
  delta * npClip (npRound (x / delta) : K) (minInt n signed) (maxInt n signed)

/-- `uniform_quantizer` and `uniform_lsq_quantizer`, trainable_infrastructure/pytorch/quantizer_utils.py
132-163 and 198-226: divide, round, clip, multiply on the range adjusted to include zero. -/
def uniTrain (x rmin rmax : K) (n : ℕ) : K :=
  let ab := fixRange rmin rmax n
  let delta := (ab.2 - ab.1) / (2 ^ n - 1)
  delta * npClip (npRound ((x - ab.1) / delta) : K) 0 (2 ^ n - 1) + ab.1

/-- The threshold given to the exported quantizer by `convert2inferable`: qat/pytorch/quantizer/lsq/
symmetric_lsq.py 100-118, qat/pytorch/quantizer/ste_rounding/symmetric_ste.py 110-128 and
trainable_infrastructure/pytorch/activation_quantizers/ste/symmetric_ste.py 94-110: rounded up to
a power of two when the quantizer is power-of-two. (`2 ** ceil(log2 t)`, without a minimum.) -/
def symConvert (t : K) (pot : Bool) : K := if pot then 2 ^ Int.clog 2 t else t

/-- The exported PyTorch quantizer of mct_quantizers (an external library):
`torch.fake_quantize_per_tensor_affine` with scale `t / 2 ** (n - signed)` and zero point 0. -/
def symInfer (x t : K) (n : ℕ) (signed : Bool) : K :=
  let delta := t / 2 ^ (n - signed.toNat)
  delta * npClip (npRound (x / delta) : K) (minInt n signed) (maxInt n signed)

/-- The threshold a weight quantizer starts training with, qat/pytorch/quantizer/lsq/symmetric_lsq.py 56-58 and
qat/pytorch/quantizer/ste_rounding/symmetric_ste.py 60-62. -/
def symInit (t : K) (pot : Bool) (minT : K) : K := effThreshold t pot minT

/-! ### Schedules -/

/-- `BaseLinearAnnealingScheduler`, trainable_infrastructure/common/annealing_schedulers.py 18-38. -/
structure Anneal (K : Type) where
  tStart : ℕ
  tEnd : ℕ
  init : K
  target : K

/-- The constructor, trainable_infrastructure/common/annealing_schedulers.py 19-38. -/
def mkAnneal (ts te : ℕ) (i g : K) : Option (Anneal K) :=
  if ts < te then some ⟨ts, te, i, g⟩ else none

/-- `__call__`, trainable_infrastructure/common/annealing_schedulers.py 56-67 with `_compute_factor` of
trainable_infrastructure/pytorch/annealing_schedulers.py 20-31 (the same in Keras). -/
def Anneal.at (a : Anneal K) (t : ℕ) : K :=
  let factor := npClip (((t : K) - a.tStart) / ((a.tEnd : K) - a.tStart)) 0 1
  a.init + factor * (a.target - a.init)

/-- `get_gradual_activation_quantizer_wrapper_factory`, gptq/common/gradual_activation_quantization.py
22-49, on the configuration of gptq/common/gptq_config.py 64-88: the end step is the total number of steps when it is absent (or 0).
-/
def gradualSchedule (start : ℕ) (endStep : Option ℕ) (i g : K) (total : ℕ) : Option (Anneal K) :=
  if ¬ (0 ≤ i ∧ i < g ∧ g ≤ 1) then none
  else match endStep with
    | none => mkAnneal start total i g
    | some e => if e ≤ start then none else mkAnneal start (if e = 0 then total else e) i g

/-- `GradualActivationQuantizerWrapper.__call__`, gptq/common/gradual_activation_quantization.py 67-77, at its call
number `k`. -/
def gradualCall (a : Anneal K) (q : K → K) (k : ℕ) (x : K) : K :=
  let f := a.at k
  (1 - f) * x + f * q x

/-- `get_regularization`, gptq/common/regularization_factory.py 25-58: the exponent of the rounding regularization,
with `int(0.2 * total)` warm-up steps (`0.2` is taken as one fifth). -/
def regSchedule (total : ℕ) : Option (Anneal K) := mkAnneal (total / 5) total 20 2

end MCT.Train
