import Mathlib.Data.List.Infix

/-!
# Fake-quant export of Keras models

`exporter/model_exporter/keras/fakely_quant_keras_exporter.py` (used by the fake-quant TFLite exporter too) and the
choice of exporter in `keras_export_facade.py`.  Layers, tensors and quantizers are arbitrary; saving to a file and
the conversion by TFLite are not modelled.
-/

namespace MCT.Export.Fq

/-- The classes of layers that the exporter tells apart; `other` is any other class. -/
inductive Cls
  | depthwise
  | conv
  | dense
  | convTranspose
  | other (n : ℕ)
  deriving DecidableEq

variable {Cfg W R V : Type}

/-- A quantizer of activations: those with a range (power of two, symmetric, uniform) have lists of minima and maxima and
a number of bits; a look-up-table quantizer has none, it is some function. -/
inductive ActQ (R V : Type)
  | ranged (lo hi : List R) (bits : ℕ)
  | table (f : V → V)

/-- A layer: a wrapper (`KerasQuantizationWrapper`) with the named weights of the layer inside, in their order, and the
quantizers of some of them; a holder of an activation quantizer (`KerasActivationQuantizationHolder`), which has a
variable that counts optimizer steps; a fake-quant operation; any other layer with its weights. -/
inductive Layer (Cfg W R V : Type)
  | wrapper (name : String) (cls : Cls) (cfg : Cfg) (vars : List (String × W)) (quants : List (String × (W → W)))
  | holder (name : String) (q : ActQ R V) (step : W)
  | fakeQuant (name : String) (lo hi : R) (bits : ℕ)
  | plain (name : String) (cls : Cls) (cfg : Cfg) (vars : List (String × W))

/-- Layers, and calls in topological order: each applies a layer to earlier values. A holder is called once: the builder
makes one for every node (`keras_model_builder.py` 314-318). -/
structure Model (Cfg W R V : Type) where
  layers : List (Layer Cfg W R V)
  calls : List (ℕ × List ℕ)

/-- What layers compute; `fq` is `tf.quantization.fake_quant_with_min_max_vars` without narrow range. -/
structure Sem (Cfg W R V : Type) where
  run : Cls → Cfg → List W → List V → Option V
  fq : R → R → ℕ → V → V

/-- Lookup in a dictionary. -/
def look {α : Type} (d : List (String × α)) (k : String) : Option α := (d.find? fun e => decide (e.1 = k)).map Prod.snd

/-- A weight as a wrapped layer uses it: quantized if there is a quantizer. -/
def usedWeight (quants : List (String × (W → W))) (e : String × W) : W :=
  match look quants e.1 with
  | some q => q e.2
  | none => e.2

/-- The weights that a wrapped layer uses: quantized where there is a quantizer (mct_quantizers, trusted). -/
def usedWeights (vars : List (String × W)) (quants : List (String × (W → W))) : List W := vars.map (usedWeight quants)

/-- What a quantizer of activations does (mct_quantizers, trusted): with a range, the fake-quant operation. -/
def runAct (sem : Sem Cfg W R V) (q : ActQ R V) (v : V) : Option V :=
  match q with
  | .ranged (lo :: _) (hi :: _) bits => some (sem.fq lo hi bits v)
  | .ranged _ _ _ => none
  | .table f => some (f v)

/-- What a layer computes. -/
def runLayer (sem : Sem Cfg W R V) (l : Layer Cfg W R V) (args : List V) : Option V :=
  match l with
  | .wrapper _ cls cfg vars quants => sem.run cls cfg (usedWeights vars quants) args
  | .holder _ q _ => args.head?.bind (runAct sem q)
  | .fakeQuant _ lo hi bits => args.head?.map (sem.fq lo hi bits)
  | .plain _ cls cfg vars => sem.run cls cfg (vars.map Prod.snd) args

/-- The values of all calls, after the inputs of the model. -/
def runCalls (sem : Sem Cfg W R V) (layers : List (Layer Cfg W R V)) : List (ℕ × List ℕ) → List V → Option (List V)
  | [], env => some env
  | (l, ins) :: cs, env =>
    (layers[l]?).bind fun L => (ins.mapM fun i => env[i]?).bind fun args =>
      (runLayer sem L args).bind fun v => runCalls sem layers cs (env ++ [v])

/-! ### The exporter -/

/-- The attribute with the kernel, for the classes that are unwrapped; another class is refused (l. 88-94). -/
def kernelName : Cls → Option String
  | .depthwise => some "depthwise_kernel"
  | .conv | .dense | .convTranspose => some "kernel"
  | .other _ => none

/-- `get_quantized_weights()[k]`: a weight without quantizer is a `KeyError`. -/
def quantizedWeight (vars : List (String × W)) (quants : List (String × (W → W))) (k : String) : Option W :=
  (look vars k).bind fun w => (look quants k).map fun q => q w

/-- `new_layer.set_weights(weights_list)`: as many weights as the layer has. -/
def setWeights (vars : List (String × W)) (ws : List W) : Option (List (String × W)) :=
  if vars.length = ws.length then some ((vars.map Prod.fst).zip ws) else none

/-- `_unwrap_quantize_wrapper` (l. 72-119): the check of the layer may raise, what it returns is not used. -/
def unwrap (check : Layer Cfg W R V → Option Bool) (l : Layer Cfg W R V) : Option (Layer Cfg W R V) :=
  (check l).bind fun _ => match l with
    | .wrapper name cls cfg vars (q :: quants) =>
      (kernelName cls).bind fun k => (quantizedWeight vars (q :: quants) k).bind fun kernel =>
        (setWeights vars (kernel :: (look vars "bias").toList)).map fun vs => .plain name cls cfg vs
    | l => some l

/-- `transform_model_cfg` (l. 157-213) for one layer: a holder becomes a fake-quant operation; a quantizer without
`min_range` is an `AttributeError`, ranges of other lengths than one an `AssertionError`. -/
def transform (l : Layer Cfg W R V) : Option (Layer Cfg W R V) :=
  match l with
  | .holder name (.ranged [lo] [hi] bits) _ => some (.fakeQuant name lo hi bits)
  | .holder _ _ _ => none
  | l => some l

/-- The variables of a layer with their names. -/
def layerVars (l : Layer Cfg W R V) : List (String × W) :=
  match l with
  | .wrapper name _ _ vars _ => vars.map fun e => (name ++ "/" ++ e.1 ++ ":0", e.2)
  | .holder name _ step => [(name ++ "/optimizer_step:0", step)]
  | .fakeQuant _ _ _ _ => []
  | .plain name _ _ vars => vars.map fun e => (name ++ "/" ++ e.1 ++ ":0", e.2)

/-- `'optimizer_step' in name`. -/
def isStep (name : String) : Bool := decide ("optimizer_step".toList <:+: name.toList)

/-- `get_filtered_weights` (l. 215-240). -/
def filteredWeights (ls : List (Layer Cfg W R V)) : List W :=
  ((ls.flatMap layerVars).filter fun e => !isStep e.1).map Prod.snd

/-- The number of variables of a layer. -/
def numVars (l : Layer Cfg W R V) : ℕ := (layerVars l).length

/-- A layer with new values of its variables. -/
def withVars (l : Layer Cfg W R V) (ws : List W) : Layer Cfg W R V :=
  match l with
  | .wrapper name cls cfg vars quants => .wrapper name cls cfg ((vars.map Prod.fst).zip ws) quants
  | .holder name q step => .holder name q (ws.headD step)
  | .fakeQuant name lo hi bits => .fakeQuant name lo hi bits
  | .plain name cls cfg vars => .plain name cls cfg ((vars.map Prod.fst).zip ws)

/-- `new_model.set_weights(filtered_weights)`: layer after layer; a different number of weights is a `ValueError`. -/
def assign : List (Layer Cfg W R V) → List W → Option (List (Layer Cfg W R V))
  | [], [] => some []
  | [], _ :: _ => none
  | l :: ls, ws =>
    if numVars l ≤ ws.length then (assign ls (ws.drop (numVars l))).map (withVars l (ws.take (numVars l)) :: ·) else none

/-- `export` (l. 65-155): the exported model. -/
def export' (check : Layer Cfg W R V → Option Bool) (m : Model Cfg W R V) : Option (Model Cfg W R V) :=
  (m.layers.mapM (unwrap check)).bind fun cloned => (cloned.mapM transform).bind fun news =>
    (assign news (filteredWeights cloned)).map fun ls => ⟨ls, m.calls⟩

/-! ### The choice of exporter -/

inductive Serialization
  | keras
  | tflite
  deriving DecidableEq

inductive Format
  | fakelyQuant
  | int8
  | mctq
  deriving DecidableEq

inductive Exporter
  | fqKeras
  | mctqKeras
  | fqTflite
  | int8Tflite
  deriving DecidableEq

/-- `keras_export_model` (`keras_export_facade.py` 66-100). -/
def chooseExporter (s : Serialization) (f : Format) : Option Exporter :=
  match s with
  | .keras => match f with
    | .fakelyQuant => some .fqKeras
    | .mctq => some .mctqKeras
    | .int8 => none
  | .tflite => match f with
    | .fakelyQuant => some .fqTflite
    | .int8 => some .int8Tflite
    | .mctq => none

/-- Whether the exporter lets the layers through the check of the user: the fake-quant exporters call it and drop the
result, the INT8 exporter asserts it (`int8_tflite_exporter.py` 151-152), the MCTQ exporter does not call it. -/
def checked (e : Exporter) (check : Layer Cfg W R V → Option Bool) (ls : List (Layer Cfg W R V)) : Bool :=
  match e with
  | .fqKeras | .fqTflite => ls.all fun l => (check l).isSome
  | .int8Tflite => ls.all fun l => check l == some true
  | .mctqKeras => true

end MCT.Export.Fq
