/-
Model of the replacement of functional convolutions and matrix products by Keras layers.

Sources (under /repo/model_compression_toolkit/core/keras/graph_substitutions/substitutions):
  conv_funcs_to_layer.py, dwconv_to_conv.py (the attributes it reads), matmul_substitution.py.

What a convolution computes for given strides, dilations, padding, format, groups and kernel is an arbitrary function,
shared by functions and layers.  How TensorFlow reads the arguments of its functions (`_get_sequence` in its
`nn_ops.py`) and how a layer adds its bias are modelled after their documentation.
-/
import Mathlib.Algebra.BigOperators.Group.List.Basic
import Mathlib.Algebra.Ring.Defs
import Mathlib.Data.List.Basic

namespace MCT.KFunc

/-! ### Arguments -/

/-- The strides or dilations of a call: missing (or `None`), a number or a list. -/
inductive Val
  | missing
  | int (n : ℕ)
  | list (l : List ℕ)
deriving DecidableEq, Repr

/-- The format of a call: not given, given as `None`, or one of the two formats. -/
inductive Fmt
  | absent
  | null
  | nhwc
  | nchw
deriving DecidableEq, Repr

/-- Is the channel the second axis? -/
def Fmt.first : Fmt → Bool
  | .nchw => true
  | _ => false

/-- The padding of a call: missing, a name, or a list of numbers. -/
inductive Pad
  | missing
  | same
  | valid
  | explicit (l : List ℕ)
deriving DecidableEq, Repr

/-- What a convolution depends on besides input and kernel. -/
structure Conf where
  strides : ℕ × ℕ
  dilations : ℕ × ℕ
  pad : Pad
  first : Bool
  groups : ℕ
deriving DecidableEq, Repr

/-- A convolution call with a constant kernel. -/
structure Call where
  strides : Val
  dilations : Val
  pad : Pad
  fmt : Fmt
  kernel : List ℕ
deriving DecidableEq, Repr

/-! ### TensorFlow -/

/-- The four numbers of an argument: all are given, or the two of the image. -/
def tfSeq (first : Bool) : Val → Option (List ℕ)
  | .missing => some [1, 1, 1, 1]
  | .int n => some (if first then [1, 1, n, n] else [1, n, n, 1])
  | .list [a] => some (if first then [1, 1, a, a] else [1, a, a, 1])
  | .list [a, b] => some (if first then [1, 1, a, b] else [1, a, b, 1])
  | .list [a, b, c, d] => some [a, b, c, d]
  | .list _ => none

/-- The numbers of the image; those of batch and channels must be 1. -/
def tfPair (first : Bool) (v : Val) : Option (ℕ × ℕ) :=
  match tfSeq first v with
  | some [a, b, c, d] =>
      if first then (if a = 1 ∧ b = 1 then some (c, d) else none)
      else (if a = 1 ∧ d = 1 then some (b, c) else none)
  | _ => none

/-- The padding of the function: `VALID` by default. -/
def tfPad : Pad → Pad
  | .missing => .valid
  | p => p

/-- The convolution that TensorFlow computes for a call on an input with `channels` channels: the kernel decides the
number of groups. -/
def tfConf (channels : ℕ) (c : Call) : Option Conf :=
  (tfPair c.fmt.first c.strides).bind fun s => (tfPair c.fmt.first c.dilations).bind fun d =>
    match c.kernel with
    | [_, _, cin, _] =>
        if cin ≠ 0 ∧ channels % cin = 0 then some ⟨s, d, tfPad c.pad, c.fmt.first, channels / cin⟩ else none
    | _ => none

/-! ### Conv2dFuncToConv2dLayer -/

/-- `_parse_tf_stride_dilation` (175-199). `none`: no replacement. -/
def parse : Val → Option (List ℕ)
  | .missing => some [1, 1]
  | .int n => some [n, n]
  | .list [a] => some [a, a]
  | .list [a, b, c, d] => if 1 < a ∧ 1 < d then none else some [b, c]
  | .list l => some l

/-- The layer that is made. -/
structure Layer (R : Type) where
  strides : List ℕ
  dilations : List ℕ
  pad : Pad
  first : Bool
  kernel : List ℕ
  bias : Option (List R)

/-- What becomes of a call. -/
inductive Res (R : Type)
  | skip
  | error
  | layer (l : Layer R)

/-- The node after the convolution: an addition of a constant vector, `bias_add` with a format, or something else. -/
inductive Next (R : Type)
  | other
  | add (b : List R)
  | biasAdd (b : List R) (fmt : Fmt)

/-- `extract_bias_node_data` (37-67) for a convolution with one following node, which has one input. -/
def extractBias {R : Type} : Next R → Option (List R)
  | .other => none
  | .add b => some b
  | .biasAdd b _ => some b

/-- `substitute` (109-173): kernels without four axes, unusual strides and paddings are skipped. -/
def convLayer {R : Type} (c : Call) (nx : Next R) : Res R :=
  if c.kernel.length ≠ 4 then .skip else
  match parse c.strides with
  | none => .skip
  | some s =>
    match c.pad with
    | .explicit _ => .skip
    | p =>
      match parse c.dilations with
      | none => .skip
      | some d =>
        match c.fmt with
        | .null => .error
        | f => .layer ⟨s, d, tfPad p, f.first, c.kernel, extractBias nx⟩

/-- The convolution of a layer with one group on an input with `channels` channels; a kernel of another shape than the
layer's cannot be set, and strides and dilations must be pairs. -/
def layerConf {R : Type} (channels : ℕ) (l : Layer R) : Option Conf :=
  match l.strides, l.dilations, l.kernel with
  | [s, t], [d, e], [_, _, cin, _] => if cin = channels then some ⟨(s, t), (d, e), l.pad, l.first, 1⟩ else none
  | _, _, _ => none

/-! ### What is computed -/

section
variable {R : Type} [Add R]

/-- A tensor with four axes. -/
abbrev Ten (R : Type) := ℕ → ℕ → ℕ → ℕ → R

/-- Addition of a vector along an axis (1 or 3). -/
def addAxis (first : Bool) (b : ℕ → R) (y : Ten R) : Ten R :=
  fun n i j k => y n i j k + b (if first then i else k)

/-- `tf.add` of a tensor with `width` elements in its last axis and a vector: the vector has as many elements, or one.
A last axis of one element, which would be widened, is not modelled. -/
def tfAdd [Zero R] (width : ℕ) (b : List R) (y : Ten R) : Option (Ten R) :=
  if b.length = width then some (addAxis false (fun i => b.getD i 0) y)
  else if b.length = 1 then some (addAxis false (fun _ => b.getD 0 0) y)
  else none

/-- `tf.nn.bias_add`: along the channels of its format, with one element for each. -/
def tfBiasAdd [Zero R] (fmt : Fmt) (size : ℕ) (b : List R) (y : Ten R) : Option (Ten R) :=
  if b.length = size then some (addAxis fmt.first (fun i => b.getD i 0) y) else none

/-- The output shape of a convolution: filters, and the lengths of the second and the last axis. -/
structure Shape where
  second : ℕ
  last : ℕ
deriving DecidableEq, Repr

/-- Convolution and following node as the user wrote them. `conv` is what convolutions compute. -/
def original [Zero R] (conv : Conf → Ten R) (shape : Conf → Shape) (channels : ℕ) (c : Call) (nx : Next R) :
    Option (Ten R) :=
  (tfConf channels c).bind fun f => match nx with
    | .other => some (conv f)
    | .add b => tfAdd (shape f).last b (conv f)
    | .biasAdd b fmt => tfBiasAdd fmt (if fmt.first then (shape f).second else (shape f).last) b (conv f)

/-- The layer: the bias has one element for each filter and is added along the channels. -/
def runLayer [Zero R] (conv : Conf → Ten R) (channels : ℕ) (l : Layer R) : Option (Ten R) :=
  (layerConf channels l).bind fun f => match l.bias with
    | none => some (conv f)
    | some b => if some b.length = l.kernel[3]? then some (addAxis l.first (fun i => b.getD i 0) (conv f)) else none

/-- The model after the replacement. -/
def replaced [Zero R] (conv : Conf → Ten R) (shape : Conf → Shape) (channels : ℕ) (c : Call) (nx : Next R) :
    Option (Ten R) :=
  match convLayer c nx with
  | .skip => original conv shape channels c nx
  | .error => none
  | .layer l => runLayer conv channels l

end

/-! ### DwConv2dFuncToDwConv2dLayer -/

/-- A depthwise call: four strides, dilations of the image; `rate` is the name of the dilations in the first version. -/
structure DwCall where
  strides : Option (List ℕ)
  rate : Option (List ℕ)
  dilations : Option (List ℕ)
  pad : Pad
  fmt : Fmt
  kernel : List ℕ
deriving DecidableEq, Repr

/-- The strides, dilations, padding and format of a depthwise convolution. -/
structure DwConf where
  strides : ℕ × ℕ
  dilations : ℕ × ℕ
  pad : Pad
  first : Bool
deriving DecidableEq, Repr

/-- What TensorFlow reads: strides of batch and channels must be 1. A call has `rate` or `dilations`. -/
def tfDwConf (c : DwCall) : Option DwConf :=
  (match c.strides with
   | some [a, b, d, e] => if c.fmt.first then (if a = 1 ∧ b = 1 then some (d, e) else none)
      else (if a = 1 ∧ e = 1 then some (b, d) else none)
   | _ => none).bind fun s =>
  (match c.rate.orElse fun _ => c.dilations with
   | none => some (1, 1)
   | some [a, b] => some (a, b)
   | _ => none).bind fun d => some ⟨s, d, tfPad c.pad, c.fmt.first⟩

/-- The attributes a node of `DepthwiseConv2D` has after the replacement (232-262); names of Keras. -/
structure DwLayer where
  strides : List ℕ
  dilations : List ℕ
  pad : Pad
  multiplier : ℕ
  attrs : List String
deriving DecidableEq, Repr

/-- `substitute` (217-268) for a constant kernel. `some none`: no replacement. -/
def dwLayer (c : DwCall) : Option (Option DwLayer) :=
  match c.kernel[3]? with
  | none => none
  | some m =>
    match c.pad with
    | .explicit _ => some none
    | p =>
      match (match c.strides with
        | none => some (some [1, 1])
        | some s => match s[0]?, s[3]? with
          | some a, some e => some (if 1 < a ∨ 1 < e then none else some ((s.take 3).drop 1))
          | _, _ => none) with
      | none => none
      | some none => some none
      | some (some s) => some (some ⟨s, (c.rate.orElse fun _ => c.dilations).getD [1, 1], tfPad p, m,
          ["depth_multiplier", "kernel_size", "activation", "strides", "padding", "dilation_rate", "use_bias"]⟩)

/-- A layer without a format is a layer with the channels last. -/
def dwLayerConf (l : DwLayer) : Option DwConf :=
  match l.strides, l.dilations with
  | [s, t], [d, e] => some ⟨(s, t), (d, e), l.pad, false⟩
  | _, _ => none

/-- `DwconvToConv.substitute` (`dwconv_to_conv.py` 77-104) comes later: for a multiplier other than 1 it reads the
initializer, the regularizer and the constraint of the kernel. `none`: a missing attribute. -/
def dwToConv (l : DwLayer) : Option DwLayer :=
  if l.multiplier = 1 then some l
  else if ["depthwise_initializer", "depthwise_regularizer", "depthwise_constraint"].all (· ∈ l.attrs) then some l
  else none

/-! ### MatmulToDenseSubstitution -/

section
variable {R : Type} [Semiring R]

/-- A matrix: rows and columns. -/
structure Mat (R : Type) where
  rows : ℕ
  cols : ℕ
  at_ : ℕ → ℕ → R

def Mat.tr (m : Mat R) : Mat R := ⟨m.cols, m.rows, fun i j => m.at_ j i⟩

def Mat.mul (a b : Mat R) : Option (Mat R) :=
  if a.cols = b.rows then some ⟨a.rows, b.cols, fun i j => ((List.range a.cols).map fun k => a.at_ i k * b.at_ k j).sum⟩
  else none

/-- A call `tf.linalg.matmul(x, w, ...)` with the flags given by name or by position (`transpose_a, transpose_b`). -/
structure MatCall where
  kwTransA : Option Bool
  kwTransB : Option Bool
  args : List Bool
deriving DecidableEq, Repr

/-- TensorFlow: a flag is given by name or by position. -/
def MatCall.transA (c : MatCall) : Bool := c.kwTransA.getD (c.args.getD 0 false)
def MatCall.transB (c : MatCall) : Bool := c.kwTransB.getD (c.args.getD 1 false)

def matmulTF (c : MatCall) (x w : Mat R) : Option (Mat R) :=
  Mat.mul (if c.transA then x.tr else x) (if c.transB then w.tr else w)

/-- What the second operand is: a constant matrix, a constant with other axes, or the first operand is the constant. -/
inductive Operand (R : Type)
  | second (w : Mat R)
  | secondOther
  | first

/-- `substitute` (40-99) for a product with one tensor: `transpose_a` is looked for among the attributes of the layer,
where the flags of a call are not. `some none`: no replacement; otherwise the kernel. -/
def denseKernel (attrs : List String) (c : MatCall) : Operand R → Option (Option (Mat R))
  | .first => if attrs.contains "adjoint_a" || attrs.contains "adjoint_b" || attrs.contains "transpose_a" then some none
      else none
  | .secondOther => some none
  | .second w =>
      if attrs.contains "adjoint_a" || attrs.contains "adjoint_b" || attrs.contains "transpose_a" then some none
      else some (some (if c.kwTransB.getD false || (decide (2 ≤ c.args.length) && c.args.getD 1 false) then w.tr else w))

/-- The attributes of the layer of a function call in Keras. -/
def opAttrs : List String := ["name", "trainable", "dtype", "function"]

/-- A dense layer without bias. -/
def dense (x k : Mat R) : Option (Mat R) := Mat.mul x k

/-- The model after the replacement. -/
def matmulReplaced (c : MatCall) (x : Mat R) (o : Operand R) (orig : Option (Mat R)) : Option (Mat R) :=
  match denseKernel opAttrs c o with
  | none => none
  | some none => orig
  | some (some k) => dense x k

end

end MCT.KFunc
