/-
Model of the batch normalisation reconstruction and refusing of second moment correction.

Sources (under /repo/model_compression_toolkit/core/common/substitutions):
  batchnorm_reconstruction.py
  batchnorm_refusing.py
-/
import Verif.Subst.Model
import Verif.Quant.Model

namespace MCT.Subst
open MCT.SubstSpec Finset

variable {K P : Type*} [Field K]

/-- The batch normalisation `BatchNormalizationReconstruction.substitute` inserts after a layer
(batchnorm_reconstruction.py 104-119): from the standard deviation and the mean the folded batch
normalisation left in the prior information of the layer. `eps` is the constant `EPSILON_VAL`, which
`create_bn_node` also gives to the new node. -/
def reconstructBN (sqrt : K → K) (eps : K) (std mean : Nat → K) : BN K :=
  { gamma := some (fun o => sqrt (std o ^ 2 + eps))
    beta := some mean
    mean := mean
    var := fun o => std o ^ 2
    eps := eps }

/-- `weights_scale` of `BatchNormalizationRefusing.substitute` (batchnorm_refusing.py 119). -/
def refuseScale (sqrt : K → K) (n : BN K) (gamma : Nat → K) : Nat → K :=
  fun o => gamma o / sqrt (n.var o + n.eps)

/-- The layer `BatchNormalizationRefusing.substitute` makes (batchnorm_refusing.py 111-141): unlike
the folding it has no defaults for a missing bias, gamma or beta, and numpy raises: `none`. -/
def refuseBN (sqrt : K → K) (c : Conv K) (n : BN K) : Option (Conv K) :=
  match c.bias, n.gamma, n.beta with
  | some b, some g, some be =>
    some { c with
      kernel := foldKernel c (refuseScale sqrt n g)
      bias := some (fun o => be o + (b o - n.mean o) * refuseScale sqrt n g o) }
  | _, _, _ => none

/-! ### The quantization parameters of the kernel -/

/-- The coordinate along which the thresholds of a kernel lie: the output channel axis of
`kernel_channels_mapping` (keras/default_framework_info.py 58-61, pytorch 50-52). -/
def outAxis (k : Kind) : Nat :=
  match k with
  | .kerasConv => 3
  | .kerasDepthwise => 2
  | .kerasTranspose => 2
  | .torchConv => 0
  | .torchTranspose => 1

/-- The size of that axis. -/
def outAxisLen (c : Conv K) : Nat := (kernelShape c).getD (outAxis c.kind) 1

/-- `update_kernel_for_bn_refusing_fn` applied to a threshold array, which has the size of the output
channel axis there and 1 along all others (batchnorm_refusing.py 164-197): `none` when numpy cannot
reshape, that is for a Keras depthwise layer with a multiplier above 1 and for a grouped PyTorch
transposed layer, whose thresholds are fewer than the scales. -/
def refuseThreshold (c : Conv K) (scale th : Nat → K) : Option (Nat → K) :=
  match c.kind with
  | .kerasDepthwise => if c.cout = c.cin then some (fun ch => th ch * scale ch) else none
  | .torchTranspose => if c.groups > 1 then none else some (fun ch => th ch * scale ch)
  | _ => some (fun ch => th ch * scale ch)

variable [LinearOrder K] [FloorRing K]

/-- The kernel quantized per output channel with the given thresholds
(`symmetric_quantizer`, quantizers/uniform_quantizers.py; the quantizer is the one of C01). -/
def quantKernel (c : Conv K) (n : Nat) (th : Nat → K) : Nat → Option K :=
  fun j => MCT.Quant.quantizeTensor (c.kernel j) (th (coord (kernelShape c) (outAxis c.kind) j)) n true

/-- The same with a range per output channel (`uniform_quantizer`). -/
def quantKernelUniform (c : Conv K) (n : Nat) (lo hi : Nat → K) : Nat → Option K :=
  fun j => MCT.Quant.uniformQuantize (c.kernel j)
    (lo (coord (kernelShape c) (outAxis c.kind) j)) (hi (coord (kernelShape c) (outAxis c.kind) j)) n

end MCT.Subst
