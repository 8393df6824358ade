/-
C147: the layers each framework attaches to the operator sets, and the options of different ways to write
one operation.
-/
import Verif.Tpc.Attach

namespace MCT.TpcSpec
open MCT.Py MCT.Tpc

/-- A way to write an operation: a layer class or a function, possibly with the value of one argument that is
given by its name. -/
structure Form where
  isFn : Bool
  op : String
  arg : Option (Name × Val) := none

/-- A node is an operation written in this way. `py` is the `__name__` of a Python function: a layer is of its own
class only, a function is also taken for every function of the same `__name__`. -/
structure Written (py : String → Name) (w : Form) (n : Node String) : Prop where
  type : ∀ l, n.fits l = true ↔ l = w.op ∨ w.isFn = true ∧ py l = py w.op
  given : ∀ k v, w.arg = some (k, v) → n.config.get k = some v

/-- The layer `c` of a network. -/
def layer (c : String) : Form := ⟨false, c, none⟩
/-- A call of the function `f`. -/
def call (f : String) : Form := ⟨true, f, none⟩
/-- The Keras layer `Activation(a)`. -/
def activation (a : String) : Form := ⟨false, "Activation", some ("activation".toList, .str a.toList)⟩
/-- A layer or a call with `min_val=0`. -/
def minZero (isFn : Bool) (c : String) : Form := ⟨isFn, c, some ("min_val".toList, .int 0)⟩

/-- The ways to write one operation in PyTorch, with the name of the operator set of the operation. -/
def torchWays : List (String × List Form) := [
  ("ReLU", [layer "nn.ReLU", call "F.relu", call "torch.relu"]),
  ("ReLU6", [layer "nn.ReLU6", call "F.relu6"]),
  ("LeakyReLU", [layer "nn.LeakyReLU", call "F.leaky_relu"]),
  ("PReLU", [layer "nn.PReLU", call "F.prelu"]),
  ("Swish", [layer "nn.SiLU", call "F.silu"]),
  ("Sigmoid", [layer "nn.Sigmoid", call "F.sigmoid", call "torch.sigmoid"]),
  ("Tanh", [layer "nn.Tanh", call "F.tanh", call "torch.tanh"]),
  ("Gelu", [layer "nn.GELU", call "F.gelu"]),
  ("Elu", [layer "nn.ELU", call "F.elu"]),
  ("HardSigmoid", [layer "nn.Hardsigmoid", call "F.hardsigmoid"]),
  ("HardSwish", [layer "nn.Hardswish", call "F.hardswish"]),
  ("Softmax", [layer "nn.Softmax", call "F.softmax", call "torch.softmax"]),
  ("Flatten", [layer "nn.Flatten", call "torch.flatten"]),
  ("Dropout", [layer "nn.Dropout", call "F.dropout", call "torch.dropout"]),
  ("MaxPool", [layer "nn.MaxPool2d", call "F.max_pool2d"]),
  ("AvgPool", [layer "nn.AvgPool2d", call "F.avg_pool2d"]),
  ("HardTanh", [minZero false "nn.Hardtanh", minZero true "F.hardtanh"]),
  ("Add", [call "operator.add", call "torch.add"]),
  ("Sub", [call "operator.sub", call "torch.sub", call "torch.subtract"]),
  ("Mul", [call "operator.mul", call "torch.mul", call "torch.multiply"]),
  ("Div", [call "operator.truediv", call "torch.div", call "torch.divide"]),
  ("Concatenate", [call "torch.cat", call "torch.concat", call "torch.concatenate", call "operator.concat"]),
  ("Reshape", [call "torch.reshape", call "torch.Tensor.view"])]

/-- The ways to write one operation in Keras, with the name of the operator set of the operation. -/
def kerasWays : List (String × List Form) := [
  ("Conv", [layer "Conv2D", call "tf.nn.conv2d"]),
  ("DepthwiseConv2D", [layer "DepthwiseConv2D", call "tf.nn.depthwise_conv2d"]),
  ("ConvTranspose", [layer "Conv2DTranspose", call "tf.nn.conv2d_transpose"]),
  ("BatchNorm", [layer "BatchNormalization", call "tf.nn.batch_normalization"]),
  ("ReLU", [layer "ReLU", call "tf.nn.relu", activation "relu"]),
  ("LeakyReLU", [layer "LeakyReLU", call "tf.nn.leaky_relu", activation "leaky_relu"]),
  ("Elu", [call "tf.nn.elu", activation "elu"]),
  ("Swish", [call "tf.nn.swish", activation "swish"]),
  ("Sigmoid", [call "tf.nn.sigmoid", activation "sigmoid"]),
  ("Tanh", [call "tf.nn.tanh", activation "tanh"]),
  ("Gelu", [call "tf.nn.gelu", activation "gelu"]),
  ("HardSigmoid", [call "tf.keras.activations.hard_sigmoid", activation "hard_sigmoid"]),
  ("Softmax", [layer "Softmax", call "tf.nn.softmax", activation "softmax"]),
  ("Add", [layer "Add", call "tf.add"]),
  ("Sub", [layer "Subtract", call "tf.subtract"]),
  ("Mul", [layer "Multiply", call "tf.math.multiply"]),
  ("Div", [call "tf.math.divide", call "tf.math.truediv"]),
  ("Min", [layer "Minimum", call "tf.math.minimum"]),
  ("Max", [layer "Maximum", call "tf.math.maximum"]),
  ("Concatenate", [layer "Concatenate", call "tf.concat"]),
  ("Reshape", [layer "Reshape", call "tf.reshape"])]

/-- The last part of a dotted name: the `__name__` of a Python function that is not exported under another name. -/
def lastPart (s : String) : Name := (s.toList.reverse.takeWhile (fun c => decide (c ≠ '.'))).reverse

end MCT.TpcSpec

namespace MCT.Tpc
open MCT.Py MCT.TpcSpec

set_option linter.unusedSectionVars false
set_option linter.unusedVariables false

/-! ### The tables -/

/-- `LayerFilterParams(Activation, activation=a)`, attach2keras.py 59-100. -/
def act (a : String) : LayerRef String := .filt ⟨"Activation", [], [("activation".toList, .str a.toList)]⟩

/-- `LayerFilterParams(c, min_val=0)`, attach2pytorch.py 58-59. -/
def fromZero (c : String) : Lfp String := ⟨c, [], [("min_val".toList, .int 0)]⟩

/-- `LayerFilterParams(torch.nn.functional.normalize, Eq('p', 2) | Eq('p', None))`, attach2pytorch.py 99-100. -/
def normalize2 : Lfp String :=
  ⟨"F.normalize", [.or 0 [.atom ['p'] .eq (.int 2), .atom ['p'] .eq .none]], []⟩

/-- The names of the attributes of linear layers in Keras, attach2keras.py 110-124. -/
def kerasKernel : Option (Dict Name (LayerRef String → Name)) :=
  some [("kernel_attr".toList, fun _ => "kernel".toList), ("bias_attr".toList, fun _ => "bias".toList)]

/-- The names of the attributes of depthwise layers in Keras, attach2keras.py 117-121. -/
def kerasDepthwise : Option (Dict Name (LayerRef String → Name)) :=
  some [("kernel_attr".toList, fun l => match l with
      | .plain x => if x = "DepthwiseConv2D" ∨ x = "tf.nn.depthwise_conv2d" then "depthwise_kernel".toList
          else "kernel".toList
      | .filt _ => "kernel".toList),
    ("bias_attr".toList, fun _ => "bias".toList)]

/-- The names of the attributes of linear layers in PyTorch, attach2pytorch.py 108-109. -/
def torchLinear : Option (Dict Name (LayerRef String → Name)) :=
  some [("kernel_attr".toList, fun _ => "weight".toList), ("bias_attr".toList, fun _ => "bias".toList)]

/-- `AttachTpcToKeras.__init__`, attach2keras.py 43-124. -/
def kerasTable : Dict Name (Known Name String) := [
  ("Conv".toList, ⟨[.plain "Conv2D", .plain "tf.nn.conv2d"], kerasKernel⟩),
  ("DepthwiseConv2D".toList, ⟨[.plain "DepthwiseConv2D", .plain "tf.nn.depthwise_conv2d"], kerasDepthwise⟩),
  ("ConvTranspose".toList, ⟨[.plain "Conv2DTranspose", .plain "tf.nn.conv2d_transpose"], kerasKernel⟩),
  ("FullyConnected".toList, ⟨[.plain "Dense"], kerasKernel⟩),
  ("Concatenate".toList, ⟨[.plain "tf.concat", .plain "Concatenate"], none⟩),
  ("Stack".toList, ⟨[.plain "tf.stack"], none⟩),
  ("Unstack".toList, ⟨[.plain "tf.unstack"], none⟩),
  ("Gather".toList, ⟨[.plain "tf.gather", .plain "tf.compat.v1.gather"], none⟩),
  ("Expend".toList, ⟨[], none⟩),
  ("BatchNorm".toList, ⟨[.plain "BatchNormalization", .plain "tf.nn.batch_normalization"], none⟩),
  ("ReLU".toList, ⟨[.plain "tf.nn.relu", .plain "ReLU", act "relu"], none⟩),
  ("ReLU6".toList, ⟨[.plain "tf.nn.relu6"], none⟩),
  ("LeakyReLU".toList, ⟨[.plain "tf.nn.leaky_relu", .plain "LeakyReLU", act "leaky_relu"], none⟩),
  ("HardTanh".toList, ⟨[act "hard_tanh"], none⟩),
  ("Add".toList, ⟨[.plain "tf.add", .plain "Add"], none⟩),
  ("Sub".toList, ⟨[.plain "tf.subtract", .plain "Subtract"], none⟩),
  ("Mul".toList, ⟨[.plain "tf.math.multiply", .plain "Multiply"], none⟩),
  ("Div".toList, ⟨[.plain "tf.math.divide", .plain "tf.math.truediv"], none⟩),
  ("Min".toList, ⟨[.plain "tf.math.minimum", .plain "Minimum"], none⟩),
  ("Max".toList, ⟨[.plain "tf.math.maximum", .plain "Maximum"], none⟩),
  ("PReLU".toList, ⟨[.plain "PReLU"], none⟩),
  ("Swish".toList, ⟨[.plain "tf.nn.swish", act "swish"], none⟩),
  ("HardSwish".toList, ⟨[act "hard_swish"], none⟩),
  ("Sigmoid".toList, ⟨[.plain "tf.nn.sigmoid", act "sigmoid"], none⟩),
  ("Tanh".toList, ⟨[.plain "tf.nn.tanh", act "tanh"], none⟩),
  ("Gelu".toList, ⟨[.plain "tf.nn.gelu", act "gelu"], none⟩),
  ("HardSigmoid".toList, ⟨[.plain "tf.keras.activations.hard_sigmoid", act "hard_sigmoid"], none⟩),
  ("Flatten".toList, ⟨[.plain "Flatten"], none⟩),
  ("GetItem".toList, ⟨[.plain "tf.__operators__.getitem"], none⟩),
  ("Reshape".toList, ⟨[.plain "Reshape", .plain "tf.reshape"], none⟩),
  ("Permute".toList, ⟨[.plain "Permute"], none⟩),
  ("Transpose".toList, ⟨[.plain "tf.transpose"], none⟩),
  ("Unsqueeze".toList, ⟨[.plain "tf.expand_dims"], none⟩),
  ("Squeeze".toList, ⟨[.plain "tf.squeeze"], none⟩),
  ("Dropout".toList, ⟨[.plain "Dropout"], none⟩),
  ("SplitChunk".toList, ⟨[.plain "tf.split"], none⟩),
  ("MaxPool".toList, ⟨[.plain "MaxPooling2D", .plain "tf.nn.avg_pool2d"], none⟩),
  ("AvgPool".toList, ⟨[.plain "AveragePooling2D"], none⟩),
  ("Size".toList, ⟨[.plain "tf.size"], none⟩),
  ("Resize".toList, ⟨[.plain "tf.image.resize"], none⟩),
  ("Pad".toList, ⟨[.plain "tf.pad", .plain "Cropping2D"], none⟩),
  ("Fold".toList, ⟨[.plain "tf.space_to_batch_nd"], none⟩),
  ("Shape".toList, ⟨[.plain "tf.shape", .plain "tf.compat.v1.shape"], none⟩),
  ("Equal".toList, ⟨[.plain "tf.math.equal"], none⟩),
  ("ArgMax".toList, ⟨[.plain "tf.math.argmax"], none⟩),
  ("TopK".toList, ⟨[.plain "tf.nn.top_k"], none⟩),
  ("FakeQuant".toList, ⟨[.plain "tf.quantization.fake_quant_with_min_max_vars"], none⟩),
  ("CombinedNonMaxSuppression".toList, ⟨[.plain "tf.image.combined_non_max_suppression"], none⟩),
  ("ZeroPadding2D".toList, ⟨[.plain "ZeroPadding2D"], none⟩),
  ("Cast".toList, ⟨[.plain "tf.cast"], none⟩),
  ("StridedSlice".toList, ⟨[.plain "tf.strided_slice"], none⟩),
  ("Elu".toList, ⟨[.plain "tf.nn.elu", act "elu"], none⟩),
  ("Softmax".toList, ⟨[.plain "tf.nn.softmax", .plain "Softmax", act "softmax"], none⟩),
  ("LogSoftmax".toList, ⟨[.plain "tf.nn.log_softmax"], none⟩),
  ("AddBias".toList, ⟨[.plain "tf.nn.bias_add"], none⟩),
  ("L2Norm".toList, ⟨[.plain "tf.math.l2_normalize"], none⟩),
  ("SSDPostProcess".toList, ⟨[.plain "SSDPostProcess"], none⟩),
  ("Exp".toList, ⟨[.plain "tf.math.exp"], none⟩),
  ("Sin".toList, ⟨[.plain "tf.math.sin"], none⟩),
  ("Cos".toList, ⟨[.plain "tf.math.cos"], none⟩)]

/-- `AttachTpcToPytorch.__init__`, attach2pytorch.py 40-112. -/
def torchTable : Dict Name (Known Name String) := [
  ("Conv".toList, ⟨[.plain "nn.Conv2d"], torchLinear⟩),
  ("DepthwiseConv2D".toList, ⟨[], none⟩),
  ("ConvTranspose".toList, ⟨[.plain "nn.ConvTranspose2d"], torchLinear⟩),
  ("FullyConnected".toList, ⟨[.plain "nn.Linear"], torchLinear⟩),
  ("Concatenate".toList, ⟨[.plain "torch.cat", .plain "torch.concat", .plain "torch.concatenate"], none⟩),
  ("Stack".toList, ⟨[.plain "torch.stack"], none⟩),
  ("Unstack".toList, ⟨[.plain "torch.unbind"], none⟩),
  ("Gather".toList, ⟨[.plain "torch.gather"], none⟩),
  ("Expend".toList, ⟨[.plain "torch.Tensor.expand"], none⟩),
  ("BatchNorm".toList, ⟨[.plain "nn.BatchNorm2d"], none⟩),
  ("ReLU".toList, ⟨[.plain "torch.relu", .plain "nn.ReLU", .plain "F.relu"], none⟩),
  ("ReLU6".toList, ⟨[.plain "nn.ReLU6", .plain "F.relu6"], none⟩),
  ("LeakyReLU".toList, ⟨[.plain "nn.LeakyReLU", .plain "F.leaky_relu"], none⟩),
  ("HardTanh".toList, ⟨[.filt (fromZero "nn.Hardtanh"), .filt (fromZero "F.hardtanh")], none⟩),
  ("Add".toList, ⟨[.plain "operator.add", .plain "torch.add"], none⟩),
  ("Sub".toList, ⟨[.plain "operator.sub", .plain "torch.sub", .plain "torch.subtract"], none⟩),
  ("Mul".toList, ⟨[.plain "operator.mul", .plain "torch.mul", .plain "torch.multiply"], none⟩),
  ("Div".toList, ⟨[.plain "operator.truediv", .plain "torch.div", .plain "torch.divide"], none⟩),
  ("AddBias".toList, ⟨[], none⟩),
  ("Min".toList, ⟨[.plain "torch.minimum"], none⟩),
  ("Max".toList, ⟨[.plain "torch.maximum"], none⟩),
  ("PReLU".toList, ⟨[.plain "nn.PReLU", .plain "F.prelu"], none⟩),
  ("Swish".toList, ⟨[.plain "nn.SiLU", .plain "F.silu"], none⟩),
  ("Sigmoid".toList, ⟨[.plain "nn.Sigmoid", .plain "torch.sigmoid", .plain "F.sigmoid"], none⟩),
  ("Tanh".toList, ⟨[.plain "nn.Tanh", .plain "torch.tanh", .plain "F.tanh"], none⟩),
  ("Gelu".toList, ⟨[.plain "nn.GELU", .plain "F.gelu"], none⟩),
  ("HardSigmoid".toList, ⟨[.plain "nn.Hardsigmoid", .plain "F.hardsigmoid"], none⟩),
  ("HardSwish".toList, ⟨[.plain "nn.Hardswish", .plain "F.hardswish"], none⟩),
  ("Flatten".toList, ⟨[.plain "nn.Flatten", .plain "torch.flatten"], none⟩),
  ("GetItem".toList, ⟨[.plain "operator.getitem"], none⟩),
  ("Reshape".toList, ⟨[.plain "torch.reshape", .plain "torch.Tensor.view"], none⟩),
  ("Unsqueeze".toList, ⟨[.plain "torch.unsqueeze"], none⟩),
  ("Squeeze".toList, ⟨[.plain "torch.squeeze"], none⟩),
  ("Permute".toList, ⟨[.plain "torch.permute"], none⟩),
  ("Transpose".toList, ⟨[.plain "torch.transpose"], none⟩),
  ("Dropout".toList, ⟨[.plain "nn.Dropout", .plain "torch.dropout"], none⟩),
  ("SplitChunk".toList, ⟨[.plain "torch.split", .plain "torch.chunk"], none⟩),
  ("MaxPool".toList, ⟨[.plain "nn.MaxPool2d", .plain "F.max_pool2d"], none⟩),
  ("AvgPool".toList, ⟨[.plain "nn.AvgPool2d", .plain "F.avg_pool2d"], none⟩),
  ("Size".toList, ⟨[.plain "torch.Tensor.size"], none⟩),
  ("Resize".toList, ⟨[.plain "torch.Tensor.resize"], none⟩),
  ("Pad".toList, ⟨[.plain "F.pad"], none⟩),
  ("Fold".toList, ⟨[.plain "F.fold"], none⟩),
  ("Shape".toList, ⟨[.plain "torch.Tensor.shape"], none⟩),
  ("Equal".toList, ⟨[.plain "torch.equal"], none⟩),
  ("ArgMax".toList, ⟨[.plain "torch.argmax"], none⟩),
  ("TopK".toList, ⟨[.plain "torch.topk"], none⟩),
  ("FakeQuant".toList, ⟨[.plain "torch.fake_quantize_per_channel_affine"], none⟩),
  ("ZeroPadding2D".toList, ⟨[.plain "nn.ZeroPad2d"], none⟩),
  ("Cast".toList, ⟨[.plain "torch.Tensor.type"], none⟩),
  ("StridedSlice".toList, ⟨[], none⟩),
  ("Elu".toList, ⟨[.plain "nn.ELU", .plain "F.elu"], none⟩),
  ("Softmax".toList, ⟨[.plain "nn.Softmax", .plain "torch.softmax", .plain "F.softmax"], none⟩),
  ("LogSoftmax".toList, ⟨[.plain "nn.LogSoftmax"], none⟩),
  ("L2Norm".toList, ⟨[.filt normalize2], none⟩),
  ("SSDPostProcess".toList, ⟨[], none⟩),
  ("CombinedNonMaxSuppression".toList, ⟨[.plain "MulticlassNMS", .plain "MulticlassNMSWithIndices"], none⟩),
  ("Exp".toList, ⟨[.plain "torch.exp"], none⟩),
  ("Sin".toList, ⟨[.plain "torch.sin"], none⟩),
  ("Cos".toList, ⟨[.plain "torch.cos"], none⟩)]

/-! ### What is checked of a table -/

/-- The layers of a table without conditions, with their operator set. -/
def plains (T : Dict Name (Known Name String)) : List (Name × String) :=
  T.flatMap (fun r => r.2.layers.filterMap (fun l => match l with
    | .plain x => some (r.1, x)
    | .filt _ => none))

/-- The filters of a table, with their operator set. -/
def filts (T : Dict Name (Known Name String)) : List (Name × Lfp String) :=
  T.flatMap (fun r => r.2.layers.filterMap (fun l => match l with
    | .plain _ => none
    | .filt f => some (r.1, f)))

/-- The only argument a filter asks for, when it asks for nothing else. -/
def asked (f : Lfp String) : Option (Name × Val) :=
  match f.conds, f.kwargs with
  | [], [p] => some p
  | _, _ => none

/-- Two filters of layers that may be taken for each other ask for the same argument, and for different values of it
when they are of different sets. -/
def agree (f g : Name × Lfp String) : Bool :=
  match asked f.2, asked g.2 with
  | some (k, v), some (k', v') => decide (k = k') && (decide (v ≠ v') || decide (f.1 = g.1))
  | none, _ => true
  | some _, none => false

/-- No layer of a table is taken for one of another set. -/
structure Separated (py : String → Name) (T : Dict Name (Known Name String)) : Prop where
  keys : T.keys.Nodup
  plain : ∀ a ∈ plains T, ∀ b ∈ plains T, py a.2 = py b.2 → a.1 = b.1
  filter : ∀ a ∈ plains T, ∀ f ∈ filts T, py a.2 ≠ py f.2.layer
  filters : ∀ f ∈ filts T, ∀ g ∈ filts T, py f.2.layer = py g.2.layer → agree f g = true

/-- The names of attributes do not depend on the layer of the set. -/
def SameAttrs (k : Known Name String) : Prop :=
  ∀ l ∈ k.layers, ∀ l' ∈ k.layers,
    k.attrMap.map (fun m => m.map (fun p => (p.1, p.2 l))) =
      k.attrMap.map (fun m => m.map (fun p => (p.1, p.2 l')))

/-- A way to write an operation is one of those of a set. -/
def Belongs (py : String → Name) (w : Form) (k : Known Name String) : Prop :=
  match w.arg with
  | none => ∃ l, .plain l ∈ k.layers ∧ (l = w.op ∨ w.isFn = true ∧ py l = py w.op)
  | some p => ∃ l, .filt ⟨l, [], [p]⟩ ∈ k.layers ∧ (l = w.op ∨ w.isFn = true ∧ py l = py w.op)

/-! ### Lemmas -/

theorem plains_mem {T : Dict Name (Known Name String)} {S : Name} {k : Known Name String} {x : String}
    (hk : T.get S = some k) (hx : .plain x ∈ k.layers) : (S, x) ∈ plains T := by
  unfold plains
  rw [List.mem_flatMap]
  exact ⟨(S, k), Dict.get_some_mem hk, List.mem_filterMap.2 ⟨_, hx, rfl⟩⟩

theorem filts_mem {T : Dict Name (Known Name String)} {S : Name} {k : Known Name String} {f : Lfp String}
    (hk : T.get S = some k) (hf : .filt f ∈ k.layers) : (S, f) ∈ filts T := by
  unfold filts
  rw [List.mem_flatMap]
  exact ⟨(S, k), Dict.get_some_mem hk, List.mem_filterMap.2 ⟨_, hf, rfl⟩⟩

/-- When everything a node matches has the same options, these are its options. -/
theorem fetch_all {t : TpcV2 Name} {m : Mapping Name String} {n : Node String} {q : Qco Name}
    (h0 : ∀ p ∈ m.filters, n.matchFilter p.1 ≠ none)
    (h1 : ∀ p ∈ m.filters, Satisfies n p.1 → p.2 = q) (h2 : ∀ p ∈ m.layers, n.fits p.1 = true → p.2 = q)
    (h3 : (∃ p ∈ m.filters, Satisfies n p.1) ∨ (∃ p ∈ m.layers, n.fits p.1 = true) ∨ q = t.defaultQco) :
    fetch t m n = some q := by
  cases hf : fetch t m n with
  | none =>
    rcases (C49_error t m n).1 hf with ⟨p, hp, e⟩ | ⟨p, hp, p', hp', s1, s2, ne⟩ | ⟨p, hp, p', hp', s1, s2, ne⟩
    · exact absurd e (h0 p hp)
    · exact absurd ((h1 p hp s1).trans (h1 p' hp' s2).symm) ne
    · exact absurd ((h2 p hp s1).trans (h2 p' hp' s2).symm) ne
  | some q' =>
    obtain ⟨hc, -, -, -⟩ := C49_chosen t m n q' hf
    rcases hc with ⟨f, hm, hs⟩ | ⟨hn, l, hm, hs⟩ | ⟨hn, hn', e⟩
    · rw [show q' = q from h1 (f, q') hm hs]
    · rw [show q' = q from h2 (l, q') hm hs]
    · rcases h3 with ⟨p, hp, hs⟩ | ⟨p, hp, hs⟩ | h3
      · exact absurd hs (hn p hp)
      · rw [hn' p hp] at hs; cases hs
      · rw [e, h3]

theorem matchFilter_unfit {n : Node String} {f : Lfp String} (h : n.fits f.layer = false) :
    n.matchFilter f ≠ none := by
  simp [Node.matchFilter, h]

theorem asked_some {f : Lfp String} {p : Name × Val} (h : asked f = some p) : f.conds = [] ∧ f.kwargs = [p] := by
  unfold asked at h
  split at h
  · next h1 h2 => simp only [Option.some.injEq] at h; subst h; exact ⟨h1, h2⟩
  · simp at h

theorem matchFilter_asked {n : Node String} {f : Lfp String} {p : Name × Val} (h : asked f = some p) :
    n.matchFilter f ≠ none := by
  obtain ⟨h1, h2⟩ := asked_some h
  unfold Node.matchFilter
  rw [h1]
  split
  · simp
  · split
    · simp
    · simp [Cond.testAnd]

/-- The options of the layers of a set that the platform has. -/
theorem setOptions_exists {t : TpcV2 Name} {S : Name} {k : Known Name String} (hat : SameAttrs k)
    (hS : ∃ p ∈ t.opSets.getD [], p.name = S) :
    ∃ q, (∀ l ∈ k.layers, layerOptions t ⟨S, k.layers, k.attrMap⟩ l = some q) ∧
      (k.layers ≠ [] → ∃ q0, SetOptions t S q0 ∧ ∃ l ∈ k.layers,
        q = q0.mapAttrKeys (k.attrMap.map (fun m => m.map (fun p => (p.1, p.2 l))))) := by
  obtain ⟨p, hp, hn⟩ := hS
  cases ho : t.opSets with
  | none => rw [ho] at hp; simp at hp
  | some sets =>
    have hc : ∃ qo, configOptions t S = some qo := by
      unfold configOptions
      rw [ho]
      dsimp only
      split <;> exact ⟨_, rfl⟩
    obtain ⟨qo, hc⟩ := hc
    cases hl : k.layers with
    | nil => exact ⟨t.defaultQco, by simp, by simp⟩
    | cons l0 ls =>
      have h0 : layerOptions t ⟨S, k.layers, k.attrMap⟩ l0 = some ((qo.getD t.defaultQco).mapAttrKeys
          (k.attrMap.map (fun m => m.map (fun p => (p.1, p.2 l0))))) := by
        unfold layerOptions; simp only [hc]
      refine ⟨(qo.getD t.defaultQco).mapAttrKeys
          (k.attrMap.map (fun m => m.map (fun p => (p.1, p.2 l0)))), ?_, fun _ => ?_⟩
      · intro l hlm
        rw [← hl] at hlm
        unfold layerOptions
        simp only [hc]
        rw [hat l hlm l0 (by rw [hl]; simp)]
      · obtain ⟨q0, h1, h2⟩ := layerOptions_result h0
        exact ⟨q0, h1, l0, by simp, h2⟩

/-- The options of the operation of a set `S`: those the platform has for the set, with the names of the attributes
of its layers, or the default when the platform does not have the set. -/
def OptionsOf (t : TpcV2 Name) (S : Name) (k : Known Name String) (q : Qco Name) : Prop :=
  ((∃ p ∈ t.opSets.getD [], p.name = S) ∧ ∃ q0, SetOptions t S q0 ∧ ∃ l ∈ k.layers,
    q = q0.mapAttrKeys (k.attrMap.map (fun m => m.map (fun p => (p.1, p.2 l))))) ∨
  ((∀ p ∈ t.opSets.getD [], p.name ≠ S) ∧ q = t.defaultQco)

/-! ### Ways to write an operation -/

/-- C147.  For every target platform that can be attached: all ways to write the operation of a set get the same
options, those of the set in the platform if it has it and the default ones otherwise. -/
theorem C147_set {py : String → Name} {T : Dict Name (Known Name String)} (hs : Separated py T)
    (s : Show String) (t : TpcV2 Name) {os : List (OpLayers Name String)} {m : Mapping Name String}
    (h : attach s t [] T = some (os, m)) {S : Name} {k : Known Name String} (hk : T.get S = some k)
    (hat : SameAttrs k) (hne : k.layers ≠ []) :
    ∃ q, OptionsOf t S k q ∧
      ∀ w n, Belongs py w k → Written py w n → fetch t m n = some q := by
  obtain ⟨-, hL, hF⟩ := C49_attach s t [] T os m h
  have hknown : ∀ name, knownOf ([] : Dict Name (Known Name String)) T name = T.get name := fun name => rfl
  have fit : ∀ {w : Form} {n : Node String} {l x : String}, Written py w n →
      (l = w.op ∨ w.isFn = true ∧ py l = py w.op) → n.fits x = true → py x = py l := by
    intro w n l x hw hl hx
    have h1 : py l = py w.op := by rcases hl with e | ⟨-, e⟩ <;> rw [e]
    have h2 : py x = py w.op := by rcases (hw.type x).1 hx with e | ⟨-, e⟩ <;> rw [e]
    rw [h1, h2]
  -- what holds for every candidate `q` of the options
  have key : ∀ q, (∀ p ∈ t.opSets.getD [], p.name = S → ∀ l ∈ k.layers,
        layerOptions t ⟨S, k.layers, k.attrMap⟩ l = some q) →
      ((∃ p ∈ t.opSets.getD [], p.name = S) ∨ q = t.defaultQco) →
      ∀ w n, Belongs py w k → Written py w n → fetch t m n = some q := by
    intro q hq hq' w n hb hw
    unfold Belongs at hb
    cases ha : w.arg with
    | none =>
      rw [ha] at hb
      obtain ⟨l, hl, hop⟩ := hb
      have hno : ∀ p ∈ m.filters, n.fits p.1.layer = false := by
        intro p hp
        by_contra hc
        rw [Bool.not_eq_false] at hc
        obtain ⟨o, ho, k', hk', hf, -⟩ := (hF p.1 p.2).1 hp
        exact hs.filter _ (plains_mem hk hl) _ (filts_mem (hknown _ ▸ hk') hf) (fit hw hop hc).symm
      refine fetch_all (fun p hp => matchFilter_unfit (hno p hp)) ?_ ?_ ?_
      · intro p hp hsat
        have := hno p hp
        rw [hsat.1] at this; cases this
      · intro p hp hfit
        obtain ⟨o, ho, k', hk', hx, hopt⟩ := (hL p.1 p.2).1 hp
        rw [hknown] at hk'
        have hS := hs.plain _ (plains_mem hk' hx) _ (plains_mem hk hl) (fit hw hop hfit)
        dsimp only at hS
        have := hq o ho hS
        rw [hS, hk] at hk'
        simp only [Option.some.injEq] at hk'
        subst hk'
        rw [hS, this _ hx] at hopt
        exact (Option.some.inj hopt).symm
      · rcases hq' with ⟨p, hp, hS⟩ | hq'
        · right; left
          refine ⟨(l, q), (hL l q).2 ⟨p, hp, k, ?_, hl, ?_⟩, (hw.type l).2 hop⟩
          · rw [hknown, hS]; exact hk
          · rw [hS]; exact hq p hp hS _ hl
        · exact Or.inr (Or.inr hq')
    | some a =>
      obtain ⟨key, v⟩ := a
      rw [ha] at hb
      obtain ⟨l, hl, hop⟩ := hb
      have hno : ∀ p ∈ m.layers, n.fits p.1 = false := by
        intro p hp
        by_contra hc
        rw [Bool.not_eq_false] at hc
        obtain ⟨o, ho, k', hk', hf, -⟩ := (hL p.1 p.2).1 hp
        exact hs.filter _ (plains_mem (hknown _ ▸ hk') hf) _ (filts_mem hk hl) (fit hw hop hc)
      have hfil : ∀ p ∈ m.filters, n.fits p.1.layer = true → ∃ v', asked p.1 = some (key, v') ∧
          (v = v' → p.2 = q) := by
        intro p hp hfit
        obtain ⟨o, ho, k', hk', hf, hopt⟩ := (hF p.1 p.2).1 hp
        rw [hknown] at hk'
        have hag := hs.filters _ (filts_mem hk hl) _ (filts_mem hk' hf) (fit hw hop hfit).symm
        unfold agree at hag
        have e : asked ⟨l, [], [(key, v)]⟩ = some (key, v) := rfl
        simp only [e] at hag
        cases hask : asked p.1 with
        | none => rw [hask] at hag; cases hag
        | some b =>
          obtain ⟨k2, v2⟩ := b
          rw [hask] at hag
          simp only [Bool.and_eq_true, Bool.or_eq_true, decide_eq_true_eq] at hag
          obtain ⟨e1, e2⟩ := hag
          subst e1
          refine ⟨v2, rfl, fun hv => ?_⟩
          rcases e2 with e2 | e2
          · exact absurd hv e2
          · have := hq o ho e2.symm
            rw [← e2, hk] at hk'
            simp only [Option.some.injEq] at hk'
            subst hk'
            rw [← e2, this _ hf] at hopt
            exact (Option.some.inj hopt).symm
      refine fetch_all ?_ ?_ ?_ ?_
      · intro p hp
        by_cases hfit : n.fits p.1.layer = true
        · obtain ⟨v', h1, -⟩ := hfil p hp hfit
          exact matchFilter_asked h1
        · exact matchFilter_unfit (by simpa using hfit)
      · intro p hp hsat
        obtain ⟨v', h1, h2⟩ := hfil p hp hsat.1
        apply h2
        have := hsat.2.1 (key, v') (by rw [(asked_some h1).2]; simp)
        rw [hw.given key v ha] at this
        simpa using this
      · intro p hp hfit
        rw [hno p hp] at hfit; cases hfit
      · rcases hq' with ⟨p, hp, hS⟩ | hq'
        · left
          refine ⟨(⟨l, [], [(key, v)]⟩, q), (hF _ q).2 ⟨p, hp, k, ?_, hl, ?_⟩, (hw.type l).2 hop, ?_, by simp⟩
          · rw [hknown, hS]; exact hk
          · rw [hS]; exact hq p hp hS _ hl
          · intro x hx
            simp only [List.mem_singleton] at hx
            subst hx
            simp [hw.given key v ha]
        · exact Or.inr (Or.inr hq')
  by_cases hS : ∃ p ∈ t.opSets.getD [], p.name = S
  · obtain ⟨q, h1, h2⟩ := setOptions_exists hat hS
    exact ⟨q, Or.inl ⟨hS, h2 hne⟩, key q (fun _ _ _ => h1) (Or.inl hS)⟩
  · push Not at hS
    exact ⟨t.defaultQco, Or.inr ⟨hS, rfl⟩, key _ (fun p hp e => absurd e (hS p hp)) (Or.inr rfl)⟩

/-- C147.  What is in no set of the framework gets the default options. -/
theorem C147_unlisted {py : String → Name} {T : Dict Name (Known Name String)} (s : Show String) (t : TpcV2 Name)
    {os : List (OpLayers Name String)} {m : Mapping Name String} (h : attach s t [] T = some (os, m))
    {w : Form} (hp : ∀ a ∈ plains T, a.2 ≠ w.op ∧ (w.isFn = true → py a.2 ≠ py w.op))
    (n : Node String) (hw : Written py w n)
    (hf : ∀ f ∈ filts T, n.matchFilter f.2 = some false) : fetch t m n = some t.defaultQco := by
  obtain ⟨-, hL, hF⟩ := C49_attach s t [] T os m h
  refine fetch_all ?_ ?_ ?_ (Or.inr (Or.inr rfl))
  · intro p hpm
    obtain ⟨o, ho, k', hk', hff, -⟩ := (hF p.1 p.2).1 hpm
    rw [hf _ (filts_mem hk' hff)]; simp
  · intro p hpm hsat
    obtain ⟨o, ho, k', hk', hff, -⟩ := (hF p.1 p.2).1 hpm
    have h1 := (C48_filter_params n p.1 false (hf _ (filts_mem hk' hff)))
    simp [hsat] at h1
  · intro p hpm hfit
    obtain ⟨o, ho, k', hk', hx, -⟩ := (hL p.1 p.2).1 hpm
    obtain ⟨h1, h2⟩ := hp _ (plains_mem hk' hx)
    rcases (hw.type p.1).1 hfit with e | ⟨e1, e2⟩
    · exact absurd e h1
    · exact absurd e2 (h2 e1)

/-! ### The tables of the frameworks -/

set_option maxRecDepth 20000

theorem kerasTable_separated : Separated lastPart kerasTable where
  keys := by decide +kernel
  plain := by decide +kernel
  filter := by decide +kernel
  filters := by decide +kernel

theorem torchTable_separated : Separated lastPart torchTable where
  keys := by decide +kernel
  plain := by decide +kernel
  filter := by decide +kernel
  filters := by decide +kernel

theorem sameAttrs_none {k : Known Name String} (h : k.attrMap = none) : SameAttrs k := by
  intro l _ l' _
  rw [h]; rfl


/-- `Belongs`, evaluated. -/
def belongsB (same : String → String → Bool) (w : Form) (k : Known Name String) : Bool :=
  k.layers.any (fun l => match l, w.arg with
    | .plain x, none => same x w.op
    | .filt f, some p => decide (asked f = some p) && same f.layer w.op
    | _, _ => false)

theorem belongsB_iff {py : String → Name} {same : String → String → Bool} {w : Form} {k : Known Name String}
    (hsame : ∀ l, same l w.op = true → l = w.op ∨ w.isFn = true ∧ py l = py w.op)
    (h : belongsB same w k = true) : Belongs py w k := by
  unfold belongsB at h
  rw [List.any_eq_true] at h
  obtain ⟨l, hl, h⟩ := h
  unfold Belongs
  cases ha : w.arg with
  | none =>
    rw [ha] at h
    cases l with
    | plain x => exact ⟨x, hl, hsame x h⟩
    | filt f => cases h
  | some p =>
    rw [ha] at h
    cases l with
    | plain x => cases h
    | filt f =>
      simp only [Bool.and_eq_true, decide_eq_true_eq] at h
      obtain ⟨h1, h2⟩ := asked_some h.1
      refine ⟨f.layer, ?_, hsame _ h.2⟩
      rw [← h1, ← h2]
      exact hl

/-- `SameAttrs`, evaluated. -/
def sameAttrsB (k : Known Name String) : Bool :=
  k.layers.all (fun l => k.layers.all (fun l' =>
    decide (k.attrMap.map (fun m => m.map (fun p => (p.1, p.2 l))) =
      k.attrMap.map (fun m => m.map (fun p => (p.1, p.2 l'))))))

theorem sameAttrs_of {k : Known Name String} (h : sameAttrsB k = true) : SameAttrs k := by
  intro l hl l' hl'
  unfold sameAttrsB at h
  rw [List.all_eq_true] at h
  have := h l hl
  rw [List.all_eq_true] at this
  simpa using this l' hl'

/-- Every group of ways is in the set of its name. -/
def waysOk (same : Form → String → String → Bool) (T : Dict Name (Known Name String))
    (ways : List (String × List Form)) : Bool :=
  ways.all (fun g => match T.get g.1.toList with
    | none => false
    | some k => sameAttrsB k && !k.layers.isEmpty && g.2.all (fun w => belongsB (same w) w k))

theorem ways_options {py : String → Name} {T : Dict Name (Known Name String)} (hs : Separated py T)
    {same : Form → String → String → Bool}
    (hsame : ∀ w l, same w l w.op = true → l = w.op ∨ w.isFn = true ∧ py l = py w.op)
    {ways : List (String × List Form)} (hok : waysOk same T ways = true)
    (s : Show String) (t : TpcV2 Name) {os : List (OpLayers Name String)} {m : Mapping Name String}
    (h : attach s t [] T = some (os, m)) (g : String × List Form) (hg : g ∈ ways) :
    ∃ k q, T.get g.1.toList = some k ∧ OptionsOf t g.1.toList k q ∧
      ∀ w ∈ g.2, ∀ n, Written py w n → fetch t m n = some q := by
  unfold waysOk at hok
  rw [List.all_eq_true] at hok
  have h1 := hok g hg
  cases hk : T.get g.1.toList with
  | none => rw [hk] at h1; cases h1
  | some k =>
    rw [hk] at h1
    simp only [Bool.and_eq_true, List.all_eq_true] at h1
    obtain ⟨⟨h2, h3⟩, h4⟩ := h1
    have hne : k.layers ≠ [] := by intro e; rw [e] at h3; cases h3
    obtain ⟨q, hq, hf⟩ := C147_set hs s t h hk (sameAttrs_of h2) hne
    exact ⟨k, q, rfl, hq, fun w hw n hn => hf w n (belongsB_iff (hsame w) (h4 w hw)) hn⟩

/-- C147 (PyTorch).  For every target platform that can be attached, the ways to write an operation get the same
options: those the platform has for the operation, or the default ones. -/
theorem C147_torch (s : Show String) (t : TpcV2 Name) {os : List (OpLayers Name String)} {m : Mapping Name String}
    (h : attach s t [] torchTable = some (os, m)) (g : String × List Form) (hg : g ∈ torchWays) :
    ∃ k q, torchTable.get g.1.toList = some k ∧ OptionsOf t g.1.toList k q ∧
      ∀ w ∈ g.2, ∀ n, Written lastPart w n → fetch t m n = some q := by
  refine ways_options torchTable_separated
    (same := fun w l op => decide (l = op) || w.isFn && decide (lastPart l = lastPart op)) ?_ ?_ s t h g hg
  · intro w l hl
    simpa using hl
  · decide +kernel

/-- C147 (Keras).  The same, whatever the `__name__`s of the functions of TensorFlow are as long as they tell the
operations apart. -/
theorem C147_keras {py : String → Name} (hs : Separated py kerasTable) (s : Show String) (t : TpcV2 Name)
    {os : List (OpLayers Name String)} {m : Mapping Name String}
    (h : attach s t [] kerasTable = some (os, m)) (g : String × List Form) (hg : g ∈ kerasWays) :
    ∃ k q, kerasTable.get g.1.toList = some k ∧ OptionsOf t g.1.toList k q ∧
      ∀ w ∈ g.2, ∀ n, Written py w n → fetch t m n = some q := by
  refine ways_options hs (same := fun w l op => decide (l = op)) ?_ ?_ s t h g hg
  · intro w l hl
    left; simpa using hl
  · decide +kernel

/-- The names of the kernel and the bias in the layers of an operator set of Keras. -/
def kerasNames (S : Name) : List (Name × Name) :=
  [("kernel_attr".toList, if S = "DepthwiseConv2D".toList then "depthwise_kernel".toList else "kernel".toList),
   ("bias_attr".toList, "bias".toList)]

theorem kerasTable_names : kerasTable.all (fun r => r.2.layers.all fun l => match r.2.attrMap with
    | none => true
    | some m => decide (m.map (fun p => (p.1, p.2 l)) = kerasNames r.1)) = true := by decide +kernel

/-- C147 (Keras).  The names the platform has for the kernel and the bias of a layer are those of the layer itself:
the kernel of depthwise convolutions is called otherwise than that of the other layers. -/
theorem C147_keras_names {r : Name × Known Name String} (hr : r ∈ kerasTable) {l : LayerRef String}
    (hl : l ∈ r.2.layers) {m : Dict Name (LayerRef String → Name)} (hm : r.2.attrMap = some m) :
    m.map (fun p => (p.1, p.2 l)) = kerasNames r.1 := by
  have h := kerasTable_names
  generalize kerasTable = T at h hr
  have h1 := List.all_eq_true.mp (List.all_eq_true.mp h r hr) l hl
  rw [hm] at h1
  exact of_decide_eq_true h1

/-! ### Ways that are missed -/

/-- What the filters of PyTorch say of a function they are not for. -/
theorem unfit_filters {T : Dict Name (Known Name String)} {py : String → Name} {w : Form} {n : Node String}
    (hw : Written py w n)
    (h : ∀ f ∈ filts T, f.2.layer ≠ w.op ∧ (w.isFn = true → py f.2.layer ≠ py w.op)) :
    ∀ f ∈ filts T, n.matchFilter f.2 = some false := by
  intro f hf
  have : n.fits f.2.layer = false := by
    by_contra hc
    rw [Bool.not_eq_false, hw.type] at hc
    obtain ⟨h1, h2⟩ := h f hf
    rcases hc with e | ⟨e1, e2⟩
    · exact h1 e
    · exact h2 e1 e2
  simp [Node.matchFilter, this]

/-- C147 is false of `log_softmax` in PyTorch: the function gets the default options whatever the platform has for
it; the layer gets those. -/
theorem C147_log_softmax_violated (s : Show String) (t : TpcV2 Name) {os : List (OpLayers Name String)}
    {m : Mapping Name String} (h : attach s t [] torchTable = some (os, m)) :
    (∀ n, Written lastPart (call "F.log_softmax") n → fetch t m n = some t.defaultQco) ∧
    ∃ k q, torchTable.get "LogSoftmax".toList = some k ∧ OptionsOf t "LogSoftmax".toList k q ∧
      ∀ n, Written lastPart (layer "nn.LogSoftmax") n → fetch t m n = some q := by
  constructor
  · intro n hn
    refine C147_unlisted s t h (w := call "F.log_softmax") ?_ n hn (unfit_filters hn ?_)
    · decide +kernel
    · decide +kernel
  · obtain ⟨k, q, h1, h2, h3⟩ := ways_options torchTable_separated
      (same := fun w l op => decide (l = op)) (fun w l hl => Or.inl (by simpa using hl))
      (ways := [("LogSoftmax", [layer "nn.LogSoftmax"])]) (by decide +kernel) s t h
      ("LogSoftmax", [layer "nn.LogSoftmax"]) (by simp)
    exact ⟨k, q, h1, h2, h3 _ (by simp)⟩

/-- C147 is false of the arguments of functions in PyTorch: `hardtanh(x, 0, 6)`, with the arguments given by their
place, gets the default options, and `hardtanh(x, min_val=0)` gets those of the operation. -/
theorem C147_position_violated (s : Show String) (t : TpcV2 Name) {os : List (OpLayers Name String)}
    {m : Mapping Name String} (h : attach s t [] torchTable = some (os, m)) :
    (∀ n, Written lastPart (call "F.hardtanh") n → n.config.get "min_val".toList = none →
      fetch t m n = some t.defaultQco) ∧
    ∃ k q, torchTable.get "HardTanh".toList = some k ∧ OptionsOf t "HardTanh".toList k q ∧
      ∀ n, Written lastPart (minZero true "F.hardtanh") n → fetch t m n = some q := by
  constructor
  · intro n hn hnone
    refine C147_unlisted s t h (w := call "F.hardtanh") (by decide +kernel) n hn ?_
    intro f hf
    have e : ∀ f ∈ filts torchTable, lastPart f.2.layer = lastPart "F.hardtanh" →
        asked f.2 = some ("min_val".toList, .int 0) := by decide +kernel
    by_cases hfit : n.fits f.2.layer = true
    · have hl : lastPart f.2.layer = lastPart "F.hardtanh" := by
        rcases (hn.type _).1 hfit with e | ⟨-, e⟩
        · rw [e]; rfl
        · exact e
      obtain ⟨-, h2⟩ := asked_some (e f hf hl)
      unfold Node.matchFilter
      rw [h2]
      have hnone' : n.config.get ['m', 'i', 'n', '_', 'v', 'a', 'l'] = none := hnone
      simp [hfit, hnone']
    · simp [Node.matchFilter, hfit]
  · obtain ⟨k, q, h1, h2, h3⟩ := C147_torch s t h
      ("HardTanh", [minZero false "nn.Hardtanh", minZero true "F.hardtanh"]) (by simp [torchWays])
    exact ⟨k, q, h1, h2, h3 _ (by simp)⟩

/-- C147 is false of the default arguments of functions in PyTorch: `normalize(x)` is the L2 norm, but a filter that
allows `p` to be `None` is not met when `p` is not given, and the default options are taken. With `p=2` they are
those of the operation. -/
theorem C147_normalize_violated (s : Show String) (t : TpcV2 Name) {os : List (OpLayers Name String)}
    {m : Mapping Name String} (h : attach s t [] torchTable = some (os, m)) :
    (∀ n, Written lastPart (call "F.normalize") n → n.config.get ['p'] = none →
      fetch t m n = some t.defaultQco) ∧
    ∀ n, Written lastPart (call "F.normalize") n → n.config.get ['p'] = some (.int 2) →
      (∃ p ∈ t.opSets.getD [], p.name = "L2Norm".toList) →
      ∃ q, SetOptions t "L2Norm".toList q ∧ fetch t m n = some (q.mapAttrKeys none) := by
  have hfilt : ∀ f ∈ filts torchTable, lastPart f.2.layer = lastPart "F.normalize" →
      f.1 = "L2Norm".toList ∧ f.2.kwargs = [] ∧ f.2.layer = "F.normalize" := by decide +kernel
  have hconds : ∀ f ∈ filts torchTable, lastPart f.2.layer = lastPart "F.normalize" →
      f.2.conds = normalize2.conds := by
    have : filts torchTable = [("HardTanh".toList, fromZero "nn.Hardtanh"), ("HardTanh".toList, fromZero "F.hardtanh"),
        ("L2Norm".toList, normalize2)] := rfl
    rw [this]
    intro f hf hl
    simp only [List.mem_cons, List.not_mem_nil, or_false] at hf
    rcases hf with rfl | rfl | rfl
    · exact absurd hl (by decide +kernel)
    · exact absurd hl (by decide +kernel)
    · rfl
  have hpl : ∀ a ∈ plains torchTable, a.2 ≠ (call "F.normalize").op ∧
      ((call "F.normalize").isFn = true → lastPart a.2 ≠ lastPart (call "F.normalize").op) := by decide +kernel
  constructor
  · intro n hn hnone
    refine C147_unlisted s t h hpl n hn ?_
    intro f hf
    by_cases hfit : n.fits f.2.layer = true
    · have hl : lastPart f.2.layer = lastPart "F.normalize" := by
        rcases (hn.type _).1 hfit with e | ⟨-, e⟩
        · rw [e]; rfl
        · exact e
      obtain ⟨-, h2, -⟩ := hfilt f hf hl
      unfold Node.matchFilter
      rw [h2, hconds f hf hl]
      simp [hfit, normalize2, Cond.testAnd, Cond.test, Cond.testOr, hnone]
    · simp [Node.matchFilter, hfit]
  · intro n hn htwo hS
    obtain ⟨-, hL, hF⟩ := C49_attach s t [] torchTable os m h
    have hk : torchTable.get "L2Norm".toList = some ⟨[.filt normalize2], none⟩ := rfl
    obtain ⟨p, hp, hpn⟩ := hS
    have hopt : ∃ q, SetOptions t "L2Norm".toList q ∧
        layerOptions t ⟨"L2Norm".toList, [.filt normalize2], none⟩ (.filt normalize2) = some (q.mapAttrKeys none) := by
      cases ho : t.opSets with
      | none => rw [ho] at hp; simp at hp
      | some sets =>
        have hc : ∃ qo, configOptions t "L2Norm".toList = some qo := by
          unfold configOptions
          rw [ho]
          dsimp only
          split <;> exact ⟨_, rfl⟩
        obtain ⟨qo, hc⟩ := hc
        have h0 : layerOptions t ⟨"L2Norm".toList, [.filt normalize2], none⟩ (.filt normalize2) =
            some ((qo.getD t.defaultQco).mapAttrKeys none) := by
          unfold layerOptions; simp only [hc]; rfl
        obtain ⟨q0, h1, h2⟩ := layerOptions_result h0
        exact ⟨q0, h1, h0.trans (by rw [h2]; rfl)⟩
    obtain ⟨q, hq, hlo⟩ := hopt
    refine ⟨q, hq, fetch_all ?_ ?_ ?_ (Or.inl ?_)⟩
    · intro x hx
      obtain ⟨o, ho, k', hk', hf, -⟩ := (hF x.1 x.2).1 hx
      by_cases hfit : n.fits x.1.layer = true
      · have hl : lastPart x.1.layer = lastPart "F.normalize" := by
          rcases (hn.type _).1 hfit with e | ⟨-, e⟩
          · rw [e]; rfl
          · exact e
        obtain ⟨-, h2, -⟩ := hfilt _ (filts_mem hk' hf) hl
        have h3 := hconds _ (filts_mem hk' hf) hl
        unfold Node.matchFilter
        dsimp only at h2 h3
        rw [h2, h3]
        simp [hfit, normalize2, Cond.testAnd, Cond.test, Cond.testOr, htwo, Op.apply]
      · exact matchFilter_unfit (by simpa using hfit)
    · intro x hx hsat
      obtain ⟨o, ho, k', hk', hf, hlo'⟩ := (hF x.1 x.2).1 hx
      have hl : lastPart x.1.layer = lastPart "F.normalize" := by
        rcases (hn.type _).1 hsat.1 with e | ⟨-, e⟩
        · rw [e]; rfl
        · exact e
      obtain ⟨h1, h2, h2'⟩ := hfilt _ (filts_mem hk' hf) hl
      have h3 := hconds _ (filts_mem hk' hf) hl
      dsimp only at h1 h2 h2' h3
      change torchTable.get o.name = some k' at hk'
      rw [h1, hk] at hk'
      obtain rfl := Option.some.inj hk'
      have hx1 : x.1 = normalize2 := by
        obtain ⟨⟨l, c, kw⟩, q'⟩ := x
        dsimp only at h2 h2' h3
        subst h2; subst h2'; subst h3
        rfl
      rw [h1, hx1, hlo] at hlo'
      exact (Option.some.inj hlo').symm
    · intro x hx hfit
      obtain ⟨o, ho, k', hk', hf, -⟩ := (hL x.1 x.2).1 hx
      obtain ⟨h1, h2⟩ := hpl _ (plains_mem hk' hf)
      rcases (hn.type x.1).1 hfit with e | ⟨e1, e2⟩
      · exact absurd e h1
      · exact absurd e2 (h2 e1)
    · refine ⟨(normalize2, q.mapAttrKeys none), (hF _ _).2 ⟨p, hp, ⟨[.filt normalize2], none⟩, ?_, ?_, ?_⟩, ?_⟩
      · rw [hpn]; exact hk
      · simp
      · rw [hpn]; exact hlo
      · have h1 : n.matchFilter normalize2 = some true := by
          have hfit : n.fits "F.normalize" = true := (hn.type _).2 (Or.inl rfl)
          simp [Node.matchFilter, normalize2, hfit, Cond.testAnd, Cond.test, Cond.testOr, htwo, Op.apply]
        exact (C48_filter_params n normalize2 true h1).1 rfl

/-- C147 is false of pooling in Keras: `tf.nn.max_pool2d` gets the default options, `tf.nn.avg_pool2d` those of
maximum pooling, and the layers `MaxPooling2D` and `AveragePooling2D` those of their operations. -/
theorem C147_pooling_violated (s : Show String) (t : TpcV2 Name) {os : List (OpLayers Name String)}
    {m : Mapping Name String} (h : attach s t [] kerasTable = some (os, m)) :
    (∀ n, Written lastPart (call "tf.nn.max_pool2d") n → fetch t m n = some t.defaultQco) ∧
    ∃ k q k' q', kerasTable.get "MaxPool".toList = some k ∧ OptionsOf t "MaxPool".toList k q ∧
      kerasTable.get "AvgPool".toList = some k' ∧ OptionsOf t "AvgPool".toList k' q' ∧
      (∀ n, Written lastPart (call "tf.nn.avg_pool2d") n → fetch t m n = some q) ∧
      (∀ n, Written lastPart (layer "MaxPooling2D") n → fetch t m n = some q) ∧
      (∀ n, Written lastPart (layer "AveragePooling2D") n → fetch t m n = some q') := by
  constructor
  · intro n hn
    exact C147_unlisted s t h (w := call "tf.nn.max_pool2d") (by decide +kernel) n hn
      (unfit_filters hn (by decide +kernel))
  · have hok : waysOk (fun w l op => decide (l = op)) kerasTable
        [("MaxPool", [call "tf.nn.avg_pool2d", layer "MaxPooling2D"]), ("AvgPool", [layer "AveragePooling2D"])] = true := by
      decide +kernel
    obtain ⟨k, q, h1, h2, h3⟩ := ways_options kerasTable_separated
      (fun w l hl => Or.inl (by simpa using hl)) hok s t h
      ("MaxPool", [call "tf.nn.avg_pool2d", layer "MaxPooling2D"]) (by simp)
    obtain ⟨k', q', h1', h2', h3'⟩ := ways_options kerasTable_separated
      (fun w l hl => Or.inl (by simpa using hl)) hok s t h ("AvgPool", [layer "AveragePooling2D"]) (by simp)
    exact ⟨k, q, k', q', h1, h2, h1', h2', h3 _ (by simp), h3 _ (by simp), h3' _ (by simp)⟩

/-- C147 is false of the layer `ELU` of Keras: it gets the default options, `tf.nn.elu` and `Activation('elu')` get
those of the operation. -/
theorem C147_elu_violated (s : Show String) (t : TpcV2 Name) {os : List (OpLayers Name String)}
    {m : Mapping Name String} (h : attach s t [] kerasTable = some (os, m)) :
    (∀ n, Written lastPart (layer "ELU") n → fetch t m n = some t.defaultQco) ∧
    ∃ k q, kerasTable.get "Elu".toList = some k ∧ OptionsOf t "Elu".toList k q ∧
      (∀ n, Written lastPart (call "tf.nn.elu") n → fetch t m n = some q) ∧
      ∀ n, Written lastPart (activation "elu") n → fetch t m n = some q := by
  constructor
  · intro n hn
    exact C147_unlisted s t h (w := layer "ELU") (by decide +kernel) n hn (unfit_filters hn (by decide +kernel))
  · obtain ⟨k, q, h1, h2, h3⟩ := C147_keras kerasTable_separated s t h
      ("Elu", [call "tf.nn.elu", activation "elu"]) (by simp [kerasWays])
    exact ⟨k, q, h1, h2, h3 _ (by simp), h3 _ (by simp)⟩

/-! #### A platform with options of its own for some operations -/

def waysCfg (bits : Nat) : OpCfg Name :=
  ⟨⟨.pot, 8, true, true, none⟩, [], .pot, bits, [8, 16], true, false, .auto, none, none, some 1⟩

def waysTpc (sets : List String) : TpcV2 Name where
  defaultQco := ⟨[waysCfg 8], waysCfg 8⟩
  opSets := some (sets.map (fun n => ⟨n.toList, some ⟨[waysCfg 16, waysCfg 8], waysCfg 16⟩⟩))
  fusing := none
  minor := none
  patch := none
  platform := none
  addMetadata := true
  name := none
  simdPadding := false
  insertPreserving := false

def waysShow : Show String := ⟨fun n => lastPart n, fun v => match v with | .str a => a | _ => [], fun _ => ['c']⟩
def callNode (f : String) (kw : Dict Name Val) : Node String :=
  ⟨fun l => decide (l = f) || decide (lastPart l = lastPart f), [], some kw⟩
def layerNode (c : String) (attrs : Dict Name Val) : Node String := ⟨fun l => decide (l = c), attrs, none⟩

theorem callNode_written (f : String) : Written lastPart (call f) (callNode f []) := by
  refine ⟨fun l => ?_, fun k v h => by cases h⟩
  simp [callNode, call]

theorem layerNode_written (c : String) : Written lastPart (layer c) (layerNode c []) := by
  refine ⟨fun l => ?_, fun k v h => by cases h⟩
  simp [layerNode, layer]

/-- The two ways to write `log_softmax` get different options. -/
example : ∃ os m, attach waysShow (waysTpc ["LogSoftmax", "ReLU"]) [] torchTable = some (os, m) ∧
    (fetch (waysTpc ["LogSoftmax", "ReLU"]) m (callNode "F.log_softmax" [])).map (·.base.actBits) = some 8 ∧
    (fetch (waysTpc ["LogSoftmax", "ReLU"]) m (layerNode "nn.LogSoftmax" [])).map (·.base.actBits) = some 16 ∧
    (fetch (waysTpc ["LogSoftmax", "ReLU"]) m (callNode "F.relu" [])).map (·.base.actBits) = some 16 :=
  ⟨_, _, rfl, by decide +kernel, by decide +kernel, by decide +kernel⟩

example : ∃ os m, attach waysShow (waysTpc ["MaxPool", "ReLU", "Elu"]) [] kerasTable = some (os, m) ∧
    (fetch (waysTpc ["MaxPool", "ReLU", "Elu"]) m (callNode "tf.nn.avg_pool2d" [])).map (·.base.actBits) = some 16 ∧
    (fetch (waysTpc ["MaxPool", "ReLU", "Elu"]) m (layerNode "AveragePooling2D" [])).map (·.base.actBits) = some 8 ∧
    (fetch (waysTpc ["MaxPool", "ReLU", "Elu"]) m
      (layerNode "Activation" [("activation".toList, .str "elu".toList)])).map (·.base.actBits) = some 16 :=
  ⟨_, _, rfl, by decide +kernel, by decide +kernel, by decide +kernel⟩


end MCT.Tpc
