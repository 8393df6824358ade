/-
Model of the weight updates of the batch normalisation foldings.

Sources (under /repo/model_compression_toolkit/core):
  common/substitutions/batchnorm_folding.py
  keras/graph_substitutions/substitutions/batchnorm_folding.py
  pytorch/graph_substitutions/substitutions/batchnorm_folding.py

Arrays are flat functions with a row-major shape, as numpy stores them; floating point numbers are
elements of a field.
-/
import Verif.Subst.Spec
import Mathlib.Algebra.BigOperators.Group.List.Basic

namespace MCT.Subst
open MCT.SubstSpec Finset

variable {K P : Type*} [Field K]

/-- Coordinate `ax` of flat position `j` in an array of the given shape (numpy's row-major order). -/
def coord (shape : List Nat) (ax j : Nat) : Nat :=
  j / (shape.drop (ax + 1)).prod % shape.getD ax 1

/-- `kernel * v` where the vector `v` has been reshaped to lie along axis `ax`. -/
def mulAlong (shape : List Nat) (ax : Nat) (kernel v : Nat → K) : Nat → K :=
  fun j => kernel j * v (coord shape ax j)

/-- The shape of the kernel as the framework stores it. -/
def kernelShape (c : Conv K) : List Nat :=
  match c.kind with
  | .kerasConv => [c.kh, c.kw, c.cin / c.groups, c.cout]
  | .kerasDepthwise => [c.kh, c.kw, c.cin, c.cout / c.cin]
  | .kerasTranspose => [c.kh, c.kw, c.cout, c.cin]
  | .torchConv => [c.cout, c.cin / c.groups, c.kh, c.kw]
  | .torchTranspose => [c.cin, c.cout / c.groups, c.kh, c.kw]

/-- `update_kernel_for_bn_folding_fn` (keras batchnorm_folding.py 60-79, pytorch 53-77). Keras
depthwise: the scale is reshaped to (1, 1, in, multiplier), so it is indexed by the last two
coordinates together. PyTorch transposed with groups: the kernel is first reshaped to
(in/groups, out, kh*kw, 1). -/
def foldKernel (c : Conv K) (scale : Nat → K) : Nat → K :=
  match c.kind with
  | .kerasDepthwise => fun j =>
      c.kernel j * scale (coord (kernelShape c) 2 j * (c.cout / c.cin) + coord (kernelShape c) 3 j)
  | .kerasTranspose => mulAlong (kernelShape c) 2 c.kernel scale
  | .kerasConv => mulAlong (kernelShape c) 3 c.kernel scale
  | .torchTranspose =>
      if c.groups > 1 then
        mulAlong [c.cin / c.groups, c.cout, c.kh * c.kw, 1] 1 c.kernel scale
      else mulAlong (kernelShape c) 1 c.kernel scale
  | .torchConv => mulAlong (kernelShape c) 0 c.kernel scale

/-- `gamma` / `beta` / `bias` with the defaults of batchnorm_folding.py 112-117. -/
def orConst (v : Option (Nat → K)) (d : K) : Nat → K :=
  match v with | none => fun _ => d | some f => f

/-- `weights_scale` (batchnorm_folding.py 119). -/
def weightsScale (sqrt : K → K) (n : BN K) : Nat → K :=
  fun o => orConst n.gamma 1 o / sqrt (n.var o + n.eps)

/-- The layer `BatchNormalizationFolding.substitute` makes (batchnorm_folding.py 104-137). -/
def foldBN (sqrt : K → K) (c : Conv K) (n : BN K) : Conv K :=
  { c with
    kernel := foldKernel c (weightsScale sqrt n)
    bias := some (fun o =>
      orConst n.beta 0 o + (orConst c.bias 0 o - n.mean o) * weightsScale sqrt n o) }

/-! ### Forward folding -/

/-- `is_group_conv_fn` (keras batchnorm_folding.py 122-131, pytorch 119-129). -/
def isGroupConv (c : Conv K) : Bool :=
  match c.kind with
  | .kerasConv => decide (c.groups > 1)
  | .kerasDepthwise => false
  | .kerasTranspose => false
  | .torchConv => decide (c.groups ≠ c.cin ∧ c.groups ≠ 1)
  | .torchTranspose => decide (c.groups ≠ c.cin ∧ c.groups ≠ 1)

/-- The sum of an array over its second axis of three, or its first of two: the reductions of
`update_weights_for_bn_forward_folding_fn` on 1x1 kernels, flattened. -/
def sumInner (n : Nat) (a : Nat → K) : Nat → K := fun o => ∑ i ∈ range n, a (o * n + i)

/-- The sum over the outer axis. -/
def sumOuter (n m : Nat) (a : Nat → K) : Nat → K := fun o => ∑ i ∈ range n, a (i * m + o)

/-- `update_weights_for_bn_forward_folding_fn` (keras batchnorm_folding.py 82-108, pytorch 80-105)
on a kernel of height and width 1: the new kernel and what is added to the bias. `none` is the
failure of numpy to broadcast: a PyTorch depthwise convolution with a multiplier above 1, whose
kernel has more rows than the vector has entries; a grouped PyTorch transposed convolution with
out/groups > 1 gives a bias of length out/groups, which does not fit either. With out/groups = 1
the sum over all input channels is broadcast to every output channel. -/
def forwardUpdate (c : Conv K) (scale factor : Nat → K) : Option ((Nat → K) × (Nat → K)) :=
  match c.kind with
  | .kerasDepthwise =>
      some (mulAlong (kernelShape c) 2 c.kernel scale, mulAlong (kernelShape c) 2 c.kernel factor)
  | .kerasTranspose =>
      some (mulAlong (kernelShape c) 3 c.kernel scale,
        sumInner c.cin (mulAlong (kernelShape c) 3 c.kernel factor))
  | .kerasConv =>
      some (mulAlong (kernelShape c) 2 c.kernel scale,
        sumOuter (c.cin / c.groups) c.cout (mulAlong (kernelShape c) 2 c.kernel factor))
  | .torchConv =>
      if c.groups > 1 then
        if c.cout = c.cin then
          some (mulAlong (kernelShape c) 0 c.kernel scale,
            mulAlong (kernelShape c) 0 c.kernel factor)
        else none
      else
        some (mulAlong (kernelShape c) 1 c.kernel scale,
          sumInner (c.cin / c.groups) (mulAlong (kernelShape c) 1 c.kernel factor))
  | .torchTranspose =>
      if c.groups > 1 then
        if c.cout = c.groups then
          some (mulAlong (kernelShape c) 0 c.kernel scale,
            fun _ => sumOuter c.cin 1 (mulAlong (kernelShape c) 0 c.kernel factor) 0)
        else none
      else
        some (mulAlong (kernelShape c) 0 c.kernel scale,
          sumOuter c.cin (c.cout / c.groups) (mulAlong (kernelShape c) 0 c.kernel factor))

/-- The layer `BatchNormalizationForwardFolding.substitute` makes from a batch normalisation and the
layer after it (batchnorm_folding.py 230-285): `ok none` when the substitution is skipped, `error`
when numpy raises. Reused layers, which are skipped, are not modelled. -/
def forwardFoldBN (sqrt : K → K) (n : BN K) (c : Conv K) : Except Unit (Option (Conv K)) :=
  if isGroupConv c then .ok none
  else if ¬ (c.kh = 1 ∧ c.kw = 1) then .ok none
  else
    let scale := weightsScale sqrt n
    match forwardUpdate c scale (fun i => orConst n.beta 0 i - n.mean i * scale i) with
    | none => .error ()
    | some (k, u) => .ok (some { c with kernel := k, bias := some (fun o => orConst c.bias 0 o + u o) })

/-- `get_foldable_node_type_and_validity_fn` (keras 134-148, pytorch 132-146) for a layer in the
place of the batch normalisation: a depthwise convolution with a 1x1 kernel. Strides, padding,
multiplier and activation function are not looked at. -/
def depthwiseFoldable (d : Conv K) : Bool :=
  (match d.kind with
    | .kerasDepthwise => true
    | .torchConv => decide (d.groups = d.cin)
    | _ => false) && decide (d.kh = 1 ∧ d.kw = 1)

/-- A 1x1 depthwise convolution taken as a batch normalisation (batchnorm_folding.py 251-256): its
flat kernel is gamma, its bias beta, mean 0, variance 1, epsilon 0. -/
def depthwiseAsBN (d : Conv K) : BN K :=
  { gamma := some d.kernel, beta := d.bias, mean := fun _ => 0, var := fun _ => 1, eps := 0 }

/-- The same substitution with a 1x1 depthwise convolution in front (the matcher accepts any Keras
DepthwiseConv2D or PyTorch Conv2d there). -/
def forwardFoldDepthwise (sqrt : K → K) (d c : Conv K) : Except Unit (Option (Conv K)) :=
  if depthwiseFoldable d then forwardFoldBN sqrt (depthwiseAsBN d) c else .ok none

end MCT.Subst
