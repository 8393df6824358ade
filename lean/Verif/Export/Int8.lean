import Verif.Decomp.KMha

/-!
# INT8 TFLite export: dense layers become point-wise convolutions

`exporter/model_exporter/keras/int8_tflite_exporter.py`.  Tensors and the Keras layers used here are those of
`Verif.Decomp.Tensor`; the conversion of the resulting model by TFLite is not modelled.
-/

namespace MCT.Export

open MCT.Decomp

variable {K : Type}

/-- The ranges in the configuration of a weights quantizer: symmetric, power-of-two and look-up-table quantizers have a
list of thresholds, uniform quantizers lists of minima and maxima. -/
inductive Ranges (K : Type)
  | threshold (t : List K)
  | minmax (lo hi : List K)

/-- Configuration of a weights quantizer (`get_config()`), with the class it belongs to. -/
structure QCfg (C K : Type) where
  cls : C
  perChannel : Bool
  axis : ℕ
  rank : ℕ
  ranges : Ranges K

/-- The lists of a range at one index: thresholds, or minima and maxima. -/
def Ranges.at [Inhabited K] (r : Ranges K) (i : ℕ) : K × K :=
  match r with
  | .threshold t => (t.getD i default, t.getD i default)
  | .minmax lo hi => (lo.getD i default, hi.getD i default)

/-- The number of ranges. -/
def Ranges.count (r : Ranges K) : ℕ :=
  match r with
  | .threshold t => t.length
  | .minmax lo _ => lo.length

/-- What an inferable weights quantizer does (mct_quantizers, trusted): `q` quantizes one number with the parameters of
its class and a range; per channel, the range is the one of the index along the channel axis. -/
def quantizeW {C : Type} [Inhabited K] (q : C → K × K → K → K) (c : QCfg C K) (w : Tensor K) : Option (Tensor K) :=
  if c.perChannel then
    if c.rank = w.shape.length ∧ c.axis < c.rank ∧ c.ranges.count = w.shape.getD c.axis 0 then
      some ⟨w.shape, fun i => q c.cls (c.ranges.at (i.getD c.axis 0)) (w.get i)⟩
    else none
  else some ⟨w.shape, fun i => q c.cls (c.ranges.at 0) (w.get i)⟩

/-- A wrapped `Dense` layer: `weights` is `wrapper.get_weights()`, whose first entry is the kernel and whose third is the
bias (with one that counts optimizer steps in between); `inShapes` the input shapes of its calls, without values for
unknown sizes.  `act` is the activation: a function of the vector along the last axis, such as `softmax` or an
elementwise one. -/
structure DenseWrap (C K : Type) where
  units : ℕ
  useBias : Bool
  act : List K → ℕ → K
  weights : List (Tensor K)
  quantizer : QCfg C K
  inShapes : List (List (Option ℕ))

/-- `wrapped_layer.input_shape`: an `AttributeError` if the layer is not called, or with different shapes. -/
def DenseWrap.inputShape {C : Type} (d : DenseWrap C K) : Option (List (Option ℕ)) :=
  match d.inShapes with
  | [] => none
  | s :: l => if l.all (· == s) then some s else none

/-- `pw_kernel`: the first weight as a kernel of size 1×1 (l. 93-95). -/
def pwKernel {C : Type} (d : DenseWrap C K) : Option (Tensor K) :=
  d.weights[0]?.bind fun k => match k.shape with
    | [c, _] => reshape (fixed [1, 1, c, d.units]) k
    | _ => none

/-- `pw_weights`: the bias is the third weight (l. 98-100). -/
def pwBias {C : Type} (d : DenseWrap C K) : Option (Option (Tensor K)) :=
  if d.useBias then d.weights[2]?.map some else some none

/-- The quantizer of the new kernel (l. 108-124): the axis of `Conv2D`, rank four; no thresholds are a `KeyError`. -/
def pwQuantizer {C : Type} (d : DenseWrap C K) : Option (QCfg C K) :=
  match d.quantizer.ranges with
  | .threshold t => some { d.quantizer with axis := 3, rank := 4, ranges := .threshold t }
  | .minmax _ _ => none

/-- `dim = input_shape[1:-1]`, with the product of the sizes: unknown sizes are a `TypeError` (l. 136-137). -/
def innerDims (s : List (Option ℕ)) : Option (List ℕ) := (s.drop 1).dropLast.mapM id

/-- The activation of a layer on its output: applied to the vector along the last axis. -/
def activate (act : List K → ℕ → K) (t : Tensor K) : Tensor K :=
  ⟨t.shape, fun i => act ((List.range (t.shape.getLastD 0)).map fun o => t.get (i.dropLast ++ [o])) (i.getLastD 0)⟩

/-- What the layers that replace the dense layer compute: `Reshape`, the wrapped point-wise convolution, `Reshape`
(`_get_pointwise_layer_to_replace_dense`, l. 70-143). -/
def runInt8 {C : Type} [Field K] [Inhabited K] (q : C → K × K → K → K) (d : DenseWrap C K) (x : Tensor K) :
    Option (Tensor K) :=
  d.inputShape.bind fun s => (pwKernel d).bind fun k => (pwBias d).bind fun b => (pwQuantizer d).bind fun c =>
  (innerDims s).bind fun dims => (d.weights[0]?).bind fun w =>
  (kreshape [1, dims.prod, w.shape.getD 0 0] x).bind fun x1 => (quantizeW q c k).bind fun kq =>
  (conv2d kq b x1).bind fun y => kreshape (dims ++ [d.units]) (activate d.act y)

/-! ### Specification -/

/-- What the wrapped dense layer computes (Keras, mct_quantizers): the quantized kernel, of shape (in, out), is
multiplied along the last axis of the input; then bias and activation.  A kernel, bias or input that does not fit is
`none`. -/
def denseRun {C : Type} [Field K] [Inhabited K] (q : C → K × K → K → K) (d : DenseWrap C K) (x : Tensor K) :
    Option (Tensor K) :=
  d.weights[0]?.bind fun w => (quantizeW q d.quantizer w).bind fun wq =>
  (if d.useBias then d.weights[2]?.map some else some none).bind fun b =>
  if w.shape = [x.shape.getLastD 0, d.units] ∧ 2 ≤ x.shape.length ∧ (b.all fun t => t.shape == [d.units]) then
    some ⟨x.shape.dropLast ++ [d.units], fun i =>
      d.act ((List.range d.units).map fun u =>
        (sumN (x.shape.getLastD 0) fun k => x.get (i.dropLast ++ [k]) * wq.get [k, u]) +
        (b.map fun t => t.get [u]).getD 0) (i.getLastD 0)⟩
  else none

end MCT.Export
