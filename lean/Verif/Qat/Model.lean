import Verif.Candidates.Model

/-!
# Model of the preparation of layers for quantization aware training, and of its end

`qat/common/qat_config.py`, `qat/keras/quantization_facade.py:49-76` and `qat/pytorch/quantization_facade.py:53-75`
(`qat_wrapper`), `qat/keras/quantizer/quantization_builder.py`, `qat/pytorch/quantizer/quantization_builder.py`,
`trainable_infrastructure/common/get_quantizers.py`, `get_quantizer_config.py`, and, for Keras, the conversion of a
layer after the training (`trainable_infrastructure/keras/quantize_wrapper.py:22-98`)


The settings of a node are those of `Verif/Candidates/Model.lean`; the parameters of a quantizer (threshold, range) are
elements of a type `P`.  An exception is `none`.
-/

namespace MCT.Qat

open MCT.Py MCT.Tpc MCT.Cand

variable {P V : Type}

inductive Framework | keras | pytorch
  deriving DecidableEq

/-- `TrainingMethod` (training_method.py). -/
inductive Training | ste | dqa | lsq
  deriving DecidableEq

inductive Target | weights | activation
  deriving DecidableEq

/-- The marks of a class of trainable quantizers (`@mark_quantizer`). -/
structure Class where
  target : Target
  methods : List Method
  training : Training
  deriving DecidableEq

/-- The classes that are loaded with the package, by their base class: `qat/keras/quantizer/__init__.py`,
`qat/pytorch/quantizer/__init__.py` and the `lsq` and `ste` packages of `trainable_infrastructure/*/activation_quantizers`.
The marks are those of the `mark_quantizer` above each class.  `qat/pytorch/quantizer/DQA/dqa_uniform.py` is imported
nowhere. -/
def classes (_ : Framework) (t : Target) : List Class :=
  [⟨t, [.pot, .sym], .ste⟩, ⟨t, [.uniform], .ste⟩, ⟨t, [.pot, .sym], .lsq⟩, ⟨t, [.uniform], .lsq⟩]

/-- `get_trainable_quantizer_class`, get_quantizers.py 25-61: exactly one class has to fit. -/
def getClass (cs : List Class) (t : Target) (tr : Training) (m : Method) : Option Class :=
  match cs.filter (fun c => decide (c.target = t) && c.methods.contains m && decide (c.training = tr)) with
  | [c] => some c
  | _ => none

/-- `QATConfig`, qat_config.py 38-59, without the overrides of parameters. -/
structure Config where
  weights : Training
  activation : Training

/-- A node after its final settings are set: the settings (`final_weights_quantization_cfg`,
`final_activation_quantization_cfg`), the parameters that were found, the channel axes, the name of the kernel if its type has
one, and the number of its outputs. -/
structure Node (P : Type) where
  weights : WCfg
  act : ActCfg
  wParams : Attr → P
  aParams : P
  axis : Attr → Nat
  kernel : Option Name
  outputs : Nat

/-- `TrainableQuantizerWeightsConfig`, trainable_quantizer_config.py 76-116, without the candidates. -/
structure WSettings (P : Type) where
  method : Method
  nBits : Nat
  params : P
  enabled : Bool
  axis : Nat
  perChannel : Bool

/-- `TrainableQuantizerActivationConfig`, trainable_quantizer_config.py 42-73, without the candidates. -/
structure ASettings (P : Type) where
  method : Method
  nBits : Nat
  params : P
  enabled : Bool

/-- `is_weights_quantization_enabled` of a node with final settings, base_node.py 223-235. -/
def weightEnabled (n : Node P) (a : Attr) : Option Bool := (n.weights.getAttr a).map (·.enabled)

/-- `is_activation_quantization_enabled`, base_node.py 193-197. -/
def actEnabled (n : Node P) : Bool := decide (n.act.mode = .quant)

/-- `is_qat_applicable`, qat_config.py 21-33. -/
def applicable (n : Node P) : Option Bool :=
  match n.kernel with
  | none => some (actEnabled n)
  | some k => (weightEnabled n (.named k)).map fun e => e || actEnabled n

/-- `get_trainable_quantizer_weights_config`, get_quantizer_config.py 22-51. -/
def wSettings (n : Node P) (a : Attr) : Option (WSettings P) :=
  (n.weights.getAttr a).map fun w => ⟨w.method, w.nBits, n.wParams a, w.enabled, n.axis a, w.perChannel⟩

/-- `get_trainable_quantizer_activation_config`, get_quantizer_config.py 54-79. -/
def aSettings (n : Node P) : ASettings P := ⟨n.act.method, n.act.nBits, n.aParams, actEnabled n⟩

/-- The quantizer of the kernel in `quantization_builder`, keras 78-92 and pytorch 80-93. -/
def buildWeights (fw : Framework) (cfg : Config) (n : Node P) (kernel : Option Name) :
    Option (List (Name × Class × WSettings P)) :=
  match kernel with
  | none => some []
  | some k =>
    (n.weights.getAttr (.named k)).bind fun w =>
      if w.enabled then
        (getClass (classes fw .weights) .weights cfg.weights w.method).bind fun c =>
          (wSettings n (.named k)).map fun s => [(k, c, s)]
      else some []

/-- The quantizers of the activations in `quantization_builder`: in Keras one for each output (94-107), in PyTorch one
(95-103). -/
def buildActs (fw : Framework) (cfg : Config) (n : Node P) : Option (List (Class × ASettings P)) :=
  if actEnabled n then
    (getClass (classes fw .activation) .activation cfg.activation n.act.method).map fun c =>
      match fw with
      | .keras => List.replicate n.outputs (c, aSettings n)
      | .pytorch => [(c, aSettings n)]
  else some []

/-- `quantization_builder`, keras 56-109 and pytorch 57-105, of a node with one candidate. -/
def builder (fw : Framework) (cfg : Config) (n : Node P) (kernel : Option Name) :
    Option (List (Name × Class × WSettings P) × List (Class × ASettings P)) :=
  (buildWeights fw cfg n kernel).bind fun w => (buildActs fw cfg n).map fun a => (w, a)

/-- `qat_wrapper`: the quantizers of the weights of the layer in the model for training; no quantizers is the layer
itself. -/
def wrapper (fw : Framework) (cfg : Config) (n : Node P) : Option (List (Name × Class × WSettings P)) :=
  (applicable n).bind fun ap => if ap then (builder fw cfg n n.kernel).map (·.1) else some []

/-- `get_activation_quantizer_holder`, keras 32-53 and pytorch 32-54. -/
def holder (fw : Framework) (cfg : Config) (n : Node P) : Option (Class × ASettings P) :=
  (builder fw cfg n none).bind fun r =>
    match r.2 with
    | [a] => some a
    | _ => none

/-- A layer of the model for training: the quantizers of its weights, and that of its output if it is quantized
(keras_model_builder.py 312-320, pytorch_model_builder.py 335-341). -/
def prepare (fw : Framework) (cfg : Config) (n : Node P) :
    Option (List (Name × Class × WSettings P) × Option (Class × ASettings P)) :=
  (wrapper fw cfg n).bind fun w =>
    if actEnabled n then (holder fw cfg n).map fun a => (w, some a) else some (w, none)

/-! ### The end of the training, Keras -/

/-- The part before the first separator (`s.split(':')[0]`). -/
def beforeSep (sep : Char) : Name → Name
  | [] => []
  | c :: cs => if c = sep then [] else c :: beforeSep sep cs

/-- The part after the last separator (`s.split('/')[-1]`). -/
def afterSep (sep : Char) : Name → Name
  | [] => []
  | c :: cs => if sep ∈ cs then afterSep sep cs else if c = sep then cs else c :: cs

/-- `_weight_name`, quantize_wrapper.py 28-39. -/
def weightName (s : Name) : Name := afterSep '/' (beforeSep ':' s)

/-- The weights of the layer without trainable quantizers, in `convert_to_inferable_quantizers`, quantize_wrapper.py
85-92: `keys` are the names of its weights, `ws` the weights of the wrapper (those of the layer, and the variables of the
quantizers). -/
def collect (keys : List Name) (ws : List (Name × V)) : List (Option V) :=
  ws.foldl (fun l w => if weightName w.1 ∈ keys then l.set (keys.idxOf (weightName w.1)) (some w.2) else l)
    (List.replicate keys.length none)

/-- The check that follows, quantize_wrapper.py 93-97. -/
def convert (names : List Name) (ws : List (Name × V)) : Option (List V) :=
  (collect (names.map weightName) ws).mapM id

end MCT.Qat
