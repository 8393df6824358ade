/-
Model of the bias corrections, the shift before softmax, and input scaling.

Sources (under /repo/model_compression_toolkit/core):
  common/statistics_correction/compute_bias_correction_of_graph.py
  common/statistics_correction/apply_bias_correction_to_graph.py
  common/statistics_correction/compute_activation_bias_correction_of_graph.py
  common/statistics_correction/apply_activation_bias_correction_to_graph.py
  common/substitutions/softmax_shift.py
  keras/graph_substitutions/substitutions/input_scaling.py
-/
import Verif.Subst.Model
import Mathlib.Algebra.Order.Group.Unbundled.Abs

namespace MCT.Subst
open MCT.SubstSpec Finset

variable {K : Type*} [Field K]

/-- A matrix with its shape. -/
structure Mat (K : Type*) where
  rows : Nat
  cols : Nat
  at_ : Nat → Nat → K

/-- `eps` (compute_bias_correction_of_graph.py 130-142): the errors of the kernel summed over all axes
but the input and the output axis, output channels first. Keras depthwise kernels are flattened to one
column. The channel axes of a PyTorch transposed convolution are (1, 0): its output axis has one entry
per output channel of one group. -/
def errorSums (c : Conv K) (err : Nat → K) : Mat K :=
  match c.kind with
  | .kerasConv => ⟨c.cout, c.cin / c.groups, fun o r => ∑ t ∈ range (c.kh * c.kw),
      err ((t * (c.cin / c.groups) + r) * c.cout + o)⟩
  | .kerasDepthwise => ⟨c.cin * (c.cout / c.cin), 1, fun o _ => ∑ t ∈ range (c.kh * c.kw),
      err (t * (c.cin * (c.cout / c.cin)) + o)⟩
  | .kerasTranspose => ⟨c.cout, c.cin, fun o i => ∑ t ∈ range (c.kh * c.kw),
      err ((t * c.cout + o) * c.cin + i)⟩
  | .torchConv => ⟨c.cout, c.cin / c.groups, fun o r => ∑ t ∈ range (c.kh * c.kw),
      err ((o * (c.cin / c.groups) + r) * (c.kh * c.kw) + t)⟩
  | .torchTranspose => ⟨c.cout / c.groups, c.cin, fun r i => ∑ t ∈ range (c.kh * c.kw),
      err ((i * (c.cout / c.groups) + r) * (c.kh * c.kw) + t)⟩

/-- `_compute_bias_correction` (compute_bias_correction_of_graph.py 105-166): the matrix is cut into
groups, each multiplied with its part of the mean vector (one entry per input channel); zeros when the
sizes do not divide. The result has one entry per row. -/
def correctionTerm (c : Conv K) (qk mu : Nat → K) : Nat × (Nat → K) :=
  let eps := errorSums c (fun j => qk j - c.kernel j)
  if c.cin < eps.cols ∨ ¬ eps.cols ∣ c.cin then (eps.rows, fun _ => 0)
  else
    let g := c.cin / eps.cols
    if eps.rows < g ∨ ¬ g ∣ eps.rows then (eps.rows, fun _ => 0)
    else (eps.rows, fun o => ∑ r ∈ range eps.cols,
      eps.at_ o r * mu (o / (eps.rows / g) * eps.cols + r))

/-- `_apply_bias_correction_to_node` (apply_bias_correction_to_graph.py 54-83) and the same for the
activations (apply_activation_bias_correction_to_graph.py 48-76): the bias minus the term, numpy
broadcasting a term of length 1; without a bias, minus the term, which must then fit the layer (building
the layer fails otherwise). -/
def subtractTerm (cout : Nat) (bias : Option (Nat → K)) (term : Nat × (Nat → K)) : Option (Nat → K) :=
  match bias with
  | some b =>
    if term.1 = cout then some (fun o => b o - term.2 o)
    else if term.1 = 1 then some (fun o => b o - term.2 0)
    else none
  | none => if term.1 = cout then some (fun o => -term.2 o) else none

/-- The layer with its quantized kernel and the corrected bias. -/
def biasCorrected (c : Conv K) (qk mu : Nat → K) : Option (Conv K) :=
  (subtractTerm c.cout c.bias (correctionTerm c qk mu)).map (fun b =>
    { c with
      kernel := qk
      bias := some b })

/-- `np.sum(kernel, axis=axis_not_output_channel)`, flattened (compute_activation_bias_correction_of_graph
130-143). -/
def outputSums (c : Conv K) : Nat × (Nat → K) :=
  let m := errorSums c c.kernel
  (m.rows, fun o => ∑ r ∈ range m.cols, m.at_ o r)

/-- `compute_activation_bias_correction` (64-148) and its application: only for kernels of one element;
`diff` is the difference of the means of the quantized and the float activations. -/
def activationCorrected (c : Conv K) (diff : K) : Option (Conv K) :=
  if c.kh = 1 ∧ c.kw = 1 then
    (subtractTerm c.cout c.bias ((outputSums c).1, fun o => diff * (outputSums c).2 o)).map (fun b =>
      { c with bias := some b })
  else some c

/-- The difference of the means (compute_activation_bias_correction_of_graph.py 96-111): of the centres
of the bins of the histogram, and of the centres of the bins whose edges have been quantized. -/
def meanDiff (bins counts : List K) (q : K → K) : K :=
  let centers := fun l : List K => List.zipWith (fun a b => (a + b) / 2) l.dropLast l.tail
  let mean := fun l : List K => (List.zipWith (fun a b => a * b) (centers l) counts).sum / counts.sum
  mean (bins.map q) - mean bins

/-! ### Softmax -/

/-- A dense layer as the graph stores it: whether the layer is built with a bias, and the weights. -/
structure Dense (K : Type*) where
  cin : Nat
  useBias : Bool
  kernel : Nat → Nat → K
  bias : Option (Nat → K)

/-- What the layer that is built from the node computes: a bias that the layer was not built with is
ignored (pytorch instance_builder.py 37: `strict=False`). -/
def Dense.out (d : Dense K) (x : Nat → K) (o : Nat) : K :=
  ∑ i ∈ range d.cin, d.kernel o i * x i + (if d.useBias then (d.bias.map (fun b => b o)).getD 0 else 0)

/-- `SoftmaxShift.substitute` (softmax_shift.py 41-71): the new layer and the new minimum and maximum of
its statistics. -/
def softmaxShift (d : Dense K) (minV maxV : K) : Dense K × K × K :=
  let shift := -1 * (maxV + minV) / 2
  ({ d with bias := some (fun o => (d.bias.map (fun b => b o)).getD 0 + shift) }, minV + shift, maxV + shift)

/-! ### Input scaling -/

/-- `BaseInputScaling.substitute` (input_scaling.py 63-107): the new layer and the scale for the user. -/
def inputScaling [LinearOrder K] (c : Conv K) (minV maxV threshold : K) : Option (Conv K × K) :=
  let float := max |minV| maxV
  if float < threshold then
    some ({ c with kernel := fun j => c.kernel j * (float / threshold) }, 1 / (float / threshold))
  else none

/-- The input scale the user is told after all inputs were handled (input_scaling.py 92, user_info.py
`set_input_scale`): one number, the last one that was set. -/
def reportedScale (scales : List K) : K := scales.getLast?.getD 1

end MCT.Subst
