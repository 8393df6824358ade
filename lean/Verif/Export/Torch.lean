import Mathlib.Data.List.Basic
import Mathlib.Data.List.Sort

/-!
# Export of PyTorch models

`exporter/model_exporter/pytorch/base_pytorch_exporter.py`, `fakely_quant_torchscript_pytorch_exporter.py`,
`fakely_quant_onnx_pytorch_exporter.py`, `pytorch_export_facade.py`.  Tensors and layers are arbitrary; tracing and
writing of files are not modelled.
-/

namespace MCT.Export.Torch

variable {F V : Type}

/-- The key of a quantized weight: an attribute of the layer, or a position among the arguments of a function. -/
inductive Key
  | attr (name : String)
  | pos (i : ℕ)
  deriving DecidableEq

/-- Lookup in a dictionary. -/
def look {κ α : Type} [DecidableEq κ] (d : List (κ × α)) (k : κ) : Option α :=
  (d.find? fun e => decide (e.1 = k)).map Prod.snd

/-- `PytorchQuantizationWrapper`: the layer inside (`isModule`: an `nn.Module`, not a function) with its parameters, the
quantized weights with their float values and quantizers, and the attributes `quantized_pos_weight_i`. -/
structure Wrapper (F V : Type) where
  fn : F
  isModule : Bool
  params : List (String × V)
  vars : List (Key × V)
  quants : List (Key × (V → V))
  posWeights : List (ℕ × V)

/-- A module of the model: a wrapper, a holder of an activation quantizer with its number of bits, any other. -/
inductive Mod (F V : Type)
  | wrapper (w : Wrapper F V)
  | holder (bits : ℕ) (q : V → V)
  | plain (fn : F) (params : List (String × V))

/-- What an attribute of the model refers to: a module, the layer inside a wrapper, or `torch.nn.Identity()`. -/
inductive Ref
  | mod (id : ℕ)
  | inner (id : ℕ)
  | identity
  deriving DecidableEq

/-- The model: its modules (objects), its attributes (two names can refer to one module, for reused layers), and the
calls of `forward`, which looks modules up by name (`pytorch_model_builder.py` 356-408). -/
structure Model (F V : Type) where
  mods : List (Mod F V)
  children : List (String × Ref)
  calls : List (String × List ℕ)

/-- `get_quantized_weights()[k]`. -/
def quantizedWeight (w : Wrapper F V) (k : Key) : Option V :=
  (look w.vars k).bind fun v => (look w.quants k).map fun q => q v

/-- The arguments with the constants put in at their positions, in ascending order (mct_quantizers, trusted). -/
def withConstants (pw : List (ℕ × V)) (args : List V) : List V :=
  (pw.mergeSort fun a b => decide (a.1 ≤ b.1)).foldl (fun l e => l.insertIdx e.1 e.2) args

/-- The parameters that the layer inside uses when the wrapper has quantizers: those of quantized attributes replaced. -/
def usedParams (w : Wrapper F V) : List (String × V) :=
  w.params.map fun e => (e.1, (quantizedWeight w (.attr e.1)).getD e.2)

/-- The constants that the wrapper puts in: those with a quantizer are quantized, the others are the stored ones. -/
def usedConstants (w : Wrapper F V) : List (ℕ × V) :=
  (w.quants.filterMap fun e => match e.1 with
    | .pos i => (quantizedWeight w (.pos i)).map fun v => (i, v)
    | .attr _ => none) ++ w.posWeights.filter fun e => (look w.quants (.pos e.1)).isNone

/-- What a wrapper computes (mct_quantizers, trusted). -/
def runWrapper (run : F → List (String × V) → List V → Option V) (w : Wrapper F V) (args : List V) : Option V :=
  run w.fn (usedParams w) (withConstants (usedConstants w) args)

/-- What a module computes. -/
def runMod (run : F → List (String × V) → List V → Option V) (m : Mod F V) (args : List V) : Option V :=
  match m with
  | .wrapper w => runWrapper run w args
  | .holder _ q => args.head?.map q
  | .plain fn params => run fn params args

/-- What an attribute computes when it is called. -/
def runRef (run : F → List (String × V) → List V → Option V) (mods : List (Mod F V)) (r : Ref) (args : List V) :
    Option V :=
  match r with
  | .identity => args.head?
  | .mod i => mods[i]?.bind fun m => runMod run m args
  | .inner i => match mods[i]? with
    | some (.wrapper w) => run w.fn w.params args
    | _ => none

/-- The values of all calls, after the inputs of the model. -/
def runCalls (run : F → List (String × V) → List V → Option V) (m : Model F V) :
    List (String × List ℕ) → List V → Option (List V)
  | [], env => some env
  | (n, ins) :: cs, env =>
    (look m.children n).bind fun r => (ins.mapM fun i => env[i]?).bind fun args =>
      (runRef run m.mods r args).bind fun v => runCalls run m cs (env ++ [v])

/-! ### The exporters -/

/-- `delattr`, `setattr` of a parameter: an attribute that does not exist is an `AttributeError`. -/
def setParam (params : List (String × V)) (n : String) (v : V) : Option (List (String × V)) :=
  if (look params n).isSome then some (params.map fun e => if e.1 = n then (n, v) else e) else none

/-- One round of the loop of `_set_quantized_weights_in_wrapper` (`base_pytorch_exporter.py` 76-100). -/
def setOne (w : Wrapper F V) (k : Key) : Option (Wrapper F V) :=
  (quantizedWeight w k).bind fun v => match k with
    | .attr n => (setParam w.params n v).map fun p => { w with params := p }
    | .pos i => some { w with posWeights := (w.posWeights.filter fun e => e.1 ≠ i) ++ [(i, v)] }

/-- `_set_quantized_weights_in_wrapper` (62-103). -/
def setQuantized (w : Wrapper F V) : Option (Wrapper F V) :=
  ((w.quants.map Prod.fst).foldlM setOne w).map fun w => { w with quants := [] }

/-- The weights of all wrappers (136-139): `modules()` lists every module once. -/
def setAll (mods : List (Mod F V)) : Option (List (Mod F V)) :=
  mods.mapM fun m => match m with
    | .wrapper w => (setQuantized w).map .wrapper
    | m => some m

/-- `_replace_wrapped_with_unwrapped` (145-153): `named_children()` lists every module once, under its first name; a
function cannot take the place of a module (`TypeError`). -/
def unwrapAll (mods : List (Mod F V)) : List ℕ → List (String × Ref) → Option (List (String × Ref))
  | _, [] => some []
  | seen, (n, r) :: cs => match r with
    | .mod i =>
      if i ∈ seen then (unwrapAll mods seen cs).map ((n, r) :: ·)
      else match mods[i]? with
        | some (.wrapper w) =>
          if w.isModule then (unwrapAll mods (i :: seen) cs).map ((n, .inner i) :: ·) else none
        | _ => (unwrapAll mods (i :: seen) cs).map ((n, r) :: ·)
    | r => (unwrapAll mods seen cs).map ((n, r) :: ·)

/-- The model that is traced for TorchScript (`fakely_quant_torchscript_pytorch_exporter.py` 54-67). -/
def toTorchScript (check : Mod F V → Option Bool) (m : Model F V) : Option (Model F V) :=
  (m.mods.mapM check).bind fun _ => (setAll m.mods).bind fun mods =>
    (unwrapAll mods [] m.children).map fun cs => { m with mods := mods, children := cs }

/-- The holders with more than eight bits, under their first names, become `torch.nn.Identity()`
(`fakely_quant_onnx_pytorch_exporter.py` 77-93). -/
def dropWide (mods : List (Mod F V)) : List ℕ → List (String × Ref) → List (String × Ref)
  | _, [] => []
  | seen, (n, r) :: cs => match r with
    | .mod i =>
      if i ∈ seen then (n, r) :: dropWide mods seen cs
      else match mods[i]? with
        | some (.holder bits _) =>
          if 8 < bits then (n, .identity) :: dropWide mods (i :: seen) cs else (n, r) :: dropWide mods (i :: seen) cs
        | _ => (n, r) :: dropWide mods (i :: seen) cs
    | r => (n, r) :: dropWide mods seen cs

/-- The model that is traced for ONNX in fake-quant format (66-116): wrappers stay, with their weights quantized. -/
def toOnnxFq (check : Mod F V → Option Bool) (m : Model F V) : Option (Model F V) :=
  (m.mods.mapM check).bind fun _ => (setAll m.mods).map fun mods =>
    { m with mods := mods, children := dropWide m.mods [] m.children }

/-- The model that is traced for ONNX with the custom operations of mct_quantizers (66-116). -/
def toOnnxMctq (check : Mod F V → Option Bool) (m : Model F V) : Option (Model F V) :=
  (m.mods.mapM check).map fun _ => m

/-- The names of the inputs (121): `count` is `len(model_input)`. -/
def inputNames (count : ℕ) : List String :=
  if 1 < count then (List.range count).map fun i => "input_" ++ toString i else ["input"]

/-- `len(model_input)` for what the representative dataset yields: the number of tensors of a list, but the batch size of
a tensor that is not in a list. -/
def inputCount (asList : Bool) (tensors batch : ℕ) : ℕ := if asList then tensors else batch

end MCT.Export.Torch
