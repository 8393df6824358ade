/-
Model of the comparison of a float model with its quantized model, that makes the report of
`xquant_report_pytorch_experimental` and `xquant_report_keras_experimental`.

Sources (under /repo/model_compression_toolkit/xquant):
  common/similarity_calculator.py, common/similarity_functions.py, common/core_report_generator.py
  pytorch/model_analyzer.py, pytorch/similarity_functions.py, pytorch/dataset_utils.py
  keras/model_analyzer.py, keras/similarity_functions.py, keras/dataset_utils.py

A network is known by the names of its layers, by the layers wrapped with a quantization wrapper, and by what
it computes on an input: the calls of its layers with their outputs, and the output of the network.  The float
network is given after folding (`create_float_folded_model`): the passes of the folding are modelled in other
topics.  Numbers are exact.  An exception is `none`.  Moving tensors between devices is left out.
-/
import Mathlib.Data.Real.Sqrt

namespace MCT.XQuant

/-- A dictionary of Python: keys with values in the order of insertion. -/
abbrev Dict (β : Type) := List (String × β)

/-- `d[k] = v`: the value of a present key is replaced in its place, an absent key goes to the end. -/
def Dict.set {β : Type} (d : Dict β) (k : String) (v : β) : Dict β :=
  if k ∈ d.map Prod.fst then d.map (fun p => if p.1 = k then (k, v) else p) else d ++ [(k, v)]

/-- `d.update(e)`. -/
def Dict.update {β : Type} (d e : Dict β) : Dict β := e.foldl (fun d p => Dict.set d p.1 p.2) d

/-- A network.  `layers`: names of the layers (`named_modules()`, `model.layers`); `wrapped`: the names of the
layers that are quantization wrappers, each with the name of the layer inside the wrapper; `calls x`: the
calls of layers on the input `x`, in order, with their outputs; `out x`: the output of the network. -/
structure Net (X T : Type) where
  layers : List String
  wrapped : List (String × String)
  calls : X → List (String × T)
  out : X → T

inductive Fw
  | torch
  | keras
  deriving DecidableEq

/-- `MODEL_OUTPUT_KEY`, common/constants.py 42. -/
def outputKey : String := "model_output_key"

/-- `identify_quantized_compare_points` with `find_corresponding_float_layer` of each:
pytorch/model_analyzer.py 91-118 (the same name), keras/model_analyzer.py 93-123 (the name of the layer
inside the wrapper). -/
def quantPoints {X T : Type} (fw : Fw) (q : Net X T) : List (String × String) :=
  match fw with
  | .torch => q.wrapped.map (fun p => (p.1, p.1))
  | .keras => q.wrapped

/-- `_get_float_to_quantized_compare_points`, similarity_calculator.py 72-108: the dictionary from float names
to quantized names; a second quantized layer for one float layer is a critical error, and a layer without a
float layer is skipped. -/
def comparePoints (floatNames : List String) : List (String × String) → Dict String → Option (Dict String)
  | [], d => some d
  | (qn, fn) :: ps, d =>
    if fn ∈ floatNames then
      if fn ∈ d.map Prod.fst then none else comparePoints floatNames ps (Dict.set d fn qn)
    else comparePoints floatNames ps d

/-- `_compute_activations` of PyTorch, pytorch/model_analyzer.py 51-89: a hook of each of the layers stores
the output of the call under the name of the layer, then the output of the network is stored under its key. -/
def torchActs {X T : Type} (n : Net X T) (names : List String) (x : X) : Dict T :=
  Dict.set ((n.calls x).foldl (fun d c => if c.1 ∈ names then Dict.set d c.1 c.2 else d) [])
    outputKey (n.out x)

/-- `get_layer(name).output`: it raises for a layer that is called several times. -/
def kerasOutput {X T : Type} (n : Net X T) (x : X) (name : String) : Option T :=
  match (n.calls x).filter (fun c => c.1 = name) with
  | [c] => some c.2
  | _ => none

/-- `_compute_activations` of Keras, keras/model_analyzer.py 51-91: a model with the outputs of the layers and
the output of the network.  Keras takes a list of one output for that output, so without layers
`predictions` is the tensor itself and `predictions[-1]` its last sample (`lastSample`). -/
def kerasActs {X T : Type} (lastSample : T → T) (n : Net X T) (names : List String) (x : X) :
    Option (Dict T) :=
  (names.mapM (fun name => (kerasOutput n x name).map (fun t => (name, t)))).map (fun d =>
    Dict.set d outputKey (if names = [] then lastSample (n.out x) else n.out x))

/-- `extract_model_activations` for one network. -/
def extract {X T : Type} (fw : Fw) (lastSample : T → T) (n : Net X T) (names : List String) (x : X) :
    Option (Dict T) :=
  match fw with
  | .torch => some (torchActs n names x)
  | .keras => kerasActs lastSample n names x

section calculator
variable {X T K : Type} [Field K]

/-- A metric between two tensors; `none` when it raises. -/
abbrev Metric (T K : Type) := T → T → Option K

/-- `compute_tensors_similarity`, similarity_calculator.py 55-70. -/
def similarity (metrics : Dict (Metric T K)) (a b : T) : Option (Dict K) :=
  metrics.mapM (fun m => (m.2 a b).map (fun v => (m.1, v)))

/-- `for key in d: d[key].append(results[key])`, similarity_calculator.py 172-173 and 180-181. -/
def appendAll (d : Dict (List K)) (results : Dict K) : Option (Dict (List K)) :=
  d.mapM (fun p => (results.lookup p.1).map (fun v => (p.1, p.2 ++ [v])))

/-- The values gathered so far: of the outputs, and of each compared layer. -/
structure Gathered (K : Type) where
  outs : Dict (List K)
  inter : Dict (Dict (List K))

/-- The initial dictionaries, similarity_calculator.py 155-157. -/
def start (metrics : Dict (Metric T K)) (pairs : Dict String) : Gathered K where
  outs := metrics.map (fun m => (m.1, []))
  inter := (pairs.map Prod.snd).foldl
    (fun d l => Dict.set d l (metrics.map (fun m => (m.1, [])))) []

/-- One compared layer on one input, similarity_calculator.py 176-181. -/
def stepLayer (metrics : Dict (Metric T K)) (fa qa : Dict T) (inter : Dict (Dict (List K)))
    (pair : String × String) : Option (Dict (Dict (List K))) :=
  (fa.lookup pair.1).bind fun a =>
  (qa.lookup pair.2).bind fun b =>
  (similarity metrics a b).bind fun res =>
  (inter.lookup pair.2).bind fun d =>
  (appendAll d res).map fun d' => Dict.set inter pair.2 d'

/-- One input of the dataset, similarity_calculator.py 160-181. -/
def stepInput (fw : Fw) (lastSample : T → T) (metrics : Dict (Metric T K)) (pairs : Dict String)
    (f q : Net X T) (g : Gathered K) (x : X) : Option (Gathered K) :=
  (extract fw lastSample f (pairs.map Prod.fst) x).bind fun fa =>
  (extract fw lastSample q (pairs.map Prod.snd) x).bind fun qa =>
  (fa.lookup outputKey).bind fun fp =>
  (qa.lookup outputKey).bind fun qp =>
  (similarity metrics fp qp).bind fun res =>
  (appendAll g.outs res).bind fun outs =>
  (pairs.foldlM (stepLayer metrics fa qa) g.inter).map fun inter => { outs := outs, inter := inter }

/-- `sum(value) / len(value)`; an empty list raises: `ZeroDivisionError` at line 184, critical at 190-191. -/
def average (l : List K) : Option K := if l = [] then none else some (l.sum / (l.length : K))

/-- The averages of a dictionary of lists, similarity_calculator.py 184-185 and 188-192. -/
def averages (d : Dict (List K)) : Option (Dict K) :=
  d.mapM (fun p => (average p.2).map (fun v => (p.1, v)))

/-- `compute_similarity_metrics` after the preparation of the dataset and the folding of the float model,
similarity_calculator.py 140-194.  `custom = none`: no metrics of the user; an empty dictionary is falsy. -/
def compute (fw : Fw) (lastSample : T → T) (defaults : Dict (Metric T K))
    (custom : Option (Dict (Metric T K))) (f q : Net X T) (dataset : List X) :
    Option (Dict K × Dict (Dict K)) :=
  let metrics := match custom with
    | none => defaults
    | some c => Dict.update defaults c
  (comparePoints f.layers (quantPoints fw q) []).bind fun pairs =>
  (dataset.foldlM (stepInput fw lastSample metrics pairs f q) (start metrics pairs)).bind fun g =>
  (averages g.outs).bind fun o =>
  (g.inter.mapM (fun p => (averages p.2).map (fun a => (p.1, a)))).map fun i => (o, i)

end calculator

/-! ### The datasets -/

/-- An element of a sample: a tensor, or a list of tensors. -/
inductive Arg (T : Type)
  | one (t : T)
  | many (ts : List T)

/-- `process_data`, pytorch/dataset_utils.py 45-76 and keras/dataset_utils.py 41-56: a sample of the
validation dataset holds the inputs (one tensor or a list) first, then the labels; a sample of the
representative dataset is the list of inputs. -/
def processData {T : Type} (isValidation : Bool) (sample : List (Arg T)) : Option (List T) :=
  if isValidation then
    match sample with
    | [] => none
    | .one t :: _ => some [t]
    | .many ts :: _ => some ts
  else sample.mapM (fun a => match a with | .one t => some t | .many _ => none)

/-! ### The metrics

Tensors are lists of their elements.  Tensors of different sizes are `none`: they raise, or they are
broadcast, which does not happen between outputs of one layer and its quantized layer. -/

noncomputable section

/-- Σ xᵢ yᵢ. -/
def dot (x y : List ℝ) : ℝ := (List.zipWith (· * ·) x y).sum

/-- Mean of the squares of a tensor; the mean of no elements is NaN. -/
def meanSq (x : List ℝ) : Option ℝ := if x = [] then none else some (dot x x / (x.length : ℝ))

/-- Elementwise difference. -/
def diff (x y : List ℝ) : Option (List ℝ) :=
  if x.length = y.length then some (List.zipWith (· - ·) x y) else none

/-- `compute_mse`: `mse_loss`, pytorch/similarity_functions.py 23-36, and `MeanSquaredError`,
keras/similarity_functions.py 28-41. -/
def mse (x y : List ℝ) : Option ℝ := (diff x y).bind meanSq

/-- `compute_sqnr`, pytorch/similarity_functions.py 53-67, keras/similarity_functions.py 58-73; a division by
zero is infinite or NaN, here `none`. -/
def sqnr (x y : List ℝ) : Option ℝ :=
  (meanSq x).bind fun s => (mse x y).bind fun n => if n = 0 then none else some (s / n)

/-- The norm, not less than `ε`. -/
def normAtLeast (ε : ℝ) (x : List ℝ) : ℝ := max (Real.sqrt (dot x x)) ε

/-- `compute_cs` of PyTorch, pytorch/similarity_functions.py 38-51: `torch.nn.functional.cosine_similarity`
with its default `eps = 1e-8`. -/
def torchCs (x y : List ℝ) : Option ℝ :=
  if x.length = y.length then
    some (dot x y / (normAtLeast (1 / 10 ^ 8) x * normAtLeast (1 / 10 ^ 8) y))
  else none

/-- `compute_cs` of Keras, keras/similarity_functions.py 43-56: the loss
`tf.keras.losses.CosineSimilarity`, that is minus the sum of the product of the tensors after
`l2_normalize`, which divides by the root of `max(Σ xᵢ², 1e-12)`. -/
def kerasCs (x y : List ℝ) : Option ℝ :=
  if x.length = y.length then
    some (-(dot (x.map (· / normAtLeast (1 / 10 ^ 6) x)) (y.map (· / normAtLeast (1 / 10 ^ 6) y))))
  else none

/-- `get_default_similarity_metrics`, common/similarity_functions.py 69-80. -/
def defaultMetrics (fw : Fw) : Dict (Metric (List ℝ) ℝ) :=
  [("mse", mse), ("cs", match fw with | .torch => torchCs | .keras => kerasCs), ("sqnr", sqnr)]

end

/-! ### The hooks of the PyTorch analysis -/

/-- The hooks a model carries, by layer.  `register_forward_hook` of each layer, pytorch/model_analyzer.py
71-79; the handles are dropped, so no hook is ever removed. -/
def addHooks (hooks : String → Nat) (names : List String) : String → Nat :=
  names.foldl (fun h n => fun m => if m = n then h m + 1 else h m) hooks

/-- The hooks on the quantized model of the user after a run over a dataset: `extract_model_activations`
registers them for every input. -/
def hooksAfter {X : Type} (hooks : String → Nat) (names : List String) (dataset : List X) : String → Nat :=
  dataset.foldl (fun h _ => addHooks h names) hooks

end MCT.XQuant
