/-
Model of the substitutions that scale two linear layers around an activation.

Sources (under /repo/model_compression_toolkit/core):
  common/substitutions/scale_equalization.py
  keras/graph_substitutions/substitutions/scale_equalization.py
  keras/graph_substitutions/substitutions/relu_bound_to_power_of_2.py
  pytorch/graph_substitutions/substitutions/scale_equalization.py
  pytorch/graph_substitutions/substitutions/relu_bound_to_power_of_2.py

A Keras Dense layer is a `kerasConv` and a PyTorch Linear layer a `torchConv` with a 1x1 kernel: their
kernels (in, out) and (out, in) are the same flat arrays, and their channel axes agree.
-/
import Verif.Subst.ReconModel
import Mathlib.Algebra.Order.Ring.Defs

namespace MCT.Subst
open MCT.SubstSpec Finset

variable {K P : Type*} [Field K]

/-- The input channel axis of `kernel_channels_mapping` (keras/default_framework_info.py 58-61,
pytorch 50-52). -/
def inAxis (k : Kind) : Nat :=
  match k with
  | .kerasConv => 2
  | .kerasDepthwise => 2
  | .kerasTranspose => 3
  | .torchConv => 1
  | .torchTranspose => 0

/-- A kernel times (or divided by) a vector of `len` entries that `scale_reshaping` has laid along axis
`ax` (scale_equalization.py 75-98). numpy raises when the sizes differ and neither is 1; when the
axis has size 1 and the vector more entries, the product has the shape of no kernel of this layer and
the model cannot be built from it. Both are `none`. -/
def alongAxis (shape : List Nat) (ax len : Nat) (f : Nat → Nat → K) : Option (Nat → K) :=
  if shape.getD ax 1 = len then some (fun j => f j (coord shape ax j)) else none

/-- `update_linear_nodes` (scale_equalization.py 101-135): the first layer times the scale along its
output channels, the second one divided by it along its input channels. The scale has an entry per
output channel of the first layer (it is computed from its output statistics). -/
def updateLinear (c1 c2 : Conv K) (scale : Nat → K) : Option (Conv K × Conv K) :=
  match alongAxis (kernelShape c2) (inAxis c2.kind) c1.cout (fun j ch => c2.kernel j / scale ch),
    alongAxis (kernelShape c1) (outAxis c1.kind) c1.cout (fun j ch => c1.kernel j * scale ch) with
  | some w2, some w1 =>
    some ({ c1 with kernel := w1, bias := c1.bias.map (fun b o => b o * scale o) },
      { c2 with kernel := w2 })
  | _, _ => none

/-! ### Activations -/

variable [LinearOrder K]

/-- A ReLU layer: the attributes `max_value`, `negative_slope` and `threshold` of Keras; PyTorch's ReLU
is `⟨none, 0, 0⟩`, ReLU6 `⟨some 6, 0, 0⟩`, Hardtanh(0, m) `⟨some m, 0, 0⟩`. -/
structure Relu (K : Type*) where
  maxValue : Option K
  slope : K
  threshold : K

/-- What the layer computes (documentation of `tf.keras.layers.ReLU`). -/
def Relu.eval (r : Relu K) (x : K) : K :=
  if x < r.threshold then r.slope * (x - r.threshold)
  else match r.maxValue with
    | none => x
    | some m => min x m

/-- `fixed_std_vector` to `scale_factor` (scale_equalization.py 155-158), one channel. -/
def scaleFactor (fixedStd : K) : K := min (1 / fixedStd) 1

/-- Whether the ReLU bound is replaced: Keras (relu_bound_to_power_of_2.py 84-88) and PyTorch layers
ReLU6 and Hardtanh (84-101): there is a bound which is not a power of two (`isPow2`, the test
`log2(m).astype(int) - log2(m) == 0`); Hardtanh must start at 0. The slope and the threshold of a Keras
ReLU are not looked at. -/
def boundReplaced (isPow2 : K → Bool) (r : Relu K) : Option K :=
  match r.maxValue with
  | none => none
  | some m => if isPow2 m then none else some m

/-- `ReLUBoundToPowerOfTwo.substitute` (keras relu_bound_to_power_of_2.py 80-105, pytorch 80-128) with
the constant `RELU_POT_BOUND = bound`: the new layers; `error` when the first layer has no bias
(`None / scale_factor` raises); `ok none` when nothing is done. -/
def reluBound (isPow2 : K → Bool) (bound : K) (c1 : Conv K) (r : Relu K) (c2 : Conv K) :
    Except Unit (Option (Conv K × Relu K × Conv K)) :=
  match boundReplaced isPow2 r with
  | none => .ok none
  | some m =>
    let s := m / bound
    match c1.bias with
    | none => .error ()
    | some b => .ok (some
        ({ c1 with kernel := fun j => c1.kernel j / s, bias := some (fun o => b o / s) },
          { r with maxValue := some bound },
          { c2 with kernel := fun j => s * c2.kernel j }))

/-- The branch for the PyTorch function `hardtanh(x, min_val, max_val)` (pytorch
relu_bound_to_power_of_2.py 102-110): the new bound is put into the defaults of the function, but the
bounds of this call were given as arguments and stay what they are. -/
def reluBoundFunctional (isPow2 : K → Bool) (bound : K) (c1 : Conv K) (r : Relu K) (c2 : Conv K) :
    Except Unit (Option (Conv K × Relu K × Conv K)) :=
  match reluBound isPow2 bound c1 r c2 with
  | .ok (some (c1', _, c2')) => .ok (some (c1', r, c2'))
  | x => x

end MCT.Subst
