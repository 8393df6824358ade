import Mathlib.Data.Option.Basic
import Mathlib.Data.List.Basic
import Mathlib.Data.List.Induction

/-!
# Model of the state that survives a call of the toolkit

`core/runner.py` (`core_runner`), the facades of post-training quantization, gradient based post-training
quantization and quantization-aware training, `core/common/quantization/core_config.py`,
`core/common/mixed_precision/mixed_precision_quantization_config.py` (the flag set by a run) and
`core/common/framework_info.py` (the pointer to the tables of the current framework).

What a run does with a model once it is decided whether bit widths are searched is given by arbitrary functions
(`World`).  The reading of the first batch and warnings are left out.
-/

namespace MCT.Runs

inductive Fw where
  | keras | torch
  deriving DecidableEq

inductive Facade where
  | ptq | gptq | qat
  deriving DecidableEq

/-- The parts of a `CoreConfig` object that no run changes (core_config.py:25-41,
mixed_precision_quantization_config.py:85-99): whether there is a mixed precision configuration, its predefined
bit widths, and whether the toolkit is bypassed. -/
structure Cfg where
  hasMp : Bool
  overwrite : Option (List Nat)
  bypass : Bool

/-- What depends on the model: `T` are target resource utilizations, `G` prepared graphs, `R` results. -/
structure World (T G R : Type) where
  /-- `ResourceUtilization.is_any_restricted` (resource_utilization.py:102-103). -/
  restricted : T → Bool
  /-- The model, as given. -/
  given : R
  /-- `graph_preparation_runner` and `quantization_preparation_runner` with the tables of a framework, with all
  candidates of a node or (`false`) with the base one only. -/
  prep : Fw → Bool → Option G
  /-- `filter_candidates_for_mixed_precision`. -/
  filter : G → T → G
  /-- `search_bit_width` beyond its first assertion. -/
  search : G → T → Option (List Nat)
  /-- `set_bit_widths` (whether bit widths were searched, the bit widths) and everything after it; the target is
  needed for the final resource utilization only. -/
  finish : G → Bool → List Nat → Option T → Option R
  /-- The report of a pair of models with the tables of a framework. -/
  report : Fw → R

variable {T G R : Type}

/-- `CoreConfig.is_mixed_precision_enabled` (core_config.py:43-48): the flag of the mixed precision configuration,
when there is one. -/
def mpEnabled (c : Cfg) (flag : Bool) : Bool := c.hasMp && flag

/-- Whether a run with this target sets the flag (runner.py:86-94); `none`: there is no mixed precision
configuration to set it in, `Logger.critical`. -/
def newFlag (w : World T G R) (c : Cfg) (flag : Bool) : Option T → Option Bool
  | none => some flag
  | some t => if w.restricted t then (if c.hasMp then some true else none) else some flag

/-- The bit widths (runner.py:118-139).  `none`: `None.total_mem_restricted()` or `None.activation_restricted()`
on a target that was not given, or the assertion of `search_bit_width`
(mixed_precision_search_facade.py:70). -/
def bitWidths (w : World T G R) (c : Cfg) (target : Option T) (g : G) : Option (G × List Nat) :=
  match c.overwrite with
  | none => target.bind fun t =>
      if w.restricted t then (w.search (w.filter g t) t).map fun b => (w.filter g t, b) else none
  | some o => target.map fun _ => (g, o)

/-- `core_runner` (runner.py:51-204) after the flag is set. -/
def coreRun (w : World T G R) (f : Fw) (c : Cfg) (enabled : Bool) (target : Option T) : Option R :=
  (w.prep f enabled).bind fun g =>
    if enabled then (bitWidths w c target g).bind fun p => w.finish p.1 true p.2 target
    else w.finish g false [] target

/-- Which facades examine `debug_config.bypass` (ptq/pytorch/quantization_facade.py:103,
ptq/keras/quantization_facade.py:129, gptq/pytorch/quantization_facade.py:213,
gptq/keras/quantization_facade.py:235; not qat). -/
def bypassed (fa : Facade) (c : Cfg) : Bool :=
  match fa with
  | .qat => false
  | _ => c.bypass

/-- A call of a facade: the flag of its configuration object after it, and its result (`none`: an exception). -/
def quantize (w : World T G R) (f : Fw) (fa : Facade) (c : Cfg) (flag : Bool) (target : Option T) :
    Bool × Option R :=
  if bypassed fa c then (flag, some w.given)
  else match newFlag w c flag target with
    | none => (flag, none)
    | some flag' => (flag', coreRun w f c (mpEnabled c flag') target)

/-- Calls of the toolkit.  `I` names configuration objects; a facade called without one uses the object made when
it was defined (`core_config: CoreConfig = CoreConfig()`), one object for all such calls of that facade. -/
inductive Call (I T G R : Type) where
  /-- A quantization facade. -/
  | quantize (f : Fw) (fa : Facade) (i : I) (w : World T G R) (target : Option T)
  /-- Any other decorated function: export, pruning, resource utilization data. -/
  | decorated (f : Fw)
  /-- `xquant_report_keras_experimental`, `xquant_report_pytorch_experimental`: not decorated. -/
  | xquant (f : Fw) (w : World T G R)

/-- The state of the process: the pointer to the tables of the current framework (framework_info.py:141) and the
flags of the configuration objects. -/
structure Proc (I : Type) where
  fw : Option Fw
  flags : I → Bool

/-- The process after the import of the toolkit. -/
def start {I : Type} : Proc I := ⟨none, fun _ => false⟩

variable {I : Type} [DecidableEq I]

/-- One call: the decorators `set_keras_info` and `set_pytorch_info` set the pointer first
(keras/default_framework_info.py:136-141, pytorch/default_framework_info.py:120-125); an undecorated function
works with the pointer it finds, and fails when there is none (framework_info.py:145-152). -/
def step (cfg : I → Cfg) (p : Proc I) : Call I T G R → Proc I × Option R
  | .quantize f fa i w target =>
    (⟨some f, Function.update p.flags i (quantize w f fa (cfg i) (p.flags i) target).1⟩,
      (quantize w f fa (cfg i) (p.flags i) target).2)
  | .decorated f => (⟨some f, p.flags⟩, none)
  | .xquant _ w => (p, p.fw.map w.report)

/-- The state after a history of calls. -/
def after (cfg : I → Cfg) (h : List (Call I T G R)) : Proc I := h.foldl (fun p c => (step cfg p c).1) start

/-- The result of a call after a history. -/
def outcome (cfg : I → Cfg) (h : List (Call I T G R)) (c : Call I T G R) : Option R := (step cfg (after cfg h) c).2

end MCT.Runs
