import Mathlib.Algebra.Order.Field.Basic
import Mathlib.Algebra.BigOperators.Group.Finset.Basic
import Mathlib.Algebra.BigOperators.Ring.Finset
import Mathlib.Algebra.Order.BigOperators.Ring.Finset
import Mathlib.Tactic.Ring
import Mathlib.Tactic.Linarith
import Mathlib.Tactic.FieldSimp
import Mathlib.Tactic.LinearCombination

/-!
# Model of the second moment correction

`core/common/substitutions/batchnorm_reconstruction.py` (which layers are marked),
`core/common/statistics_correction/` (`compute_bias_correction_of_graph.py`,
`apply_bias_correction_to_graph.py`, `apply_second_moment_correction_to_graph.py`) and the two
`apply_second_moment_correction.py` of the frameworks (the run over the representative dataset).

What layers compute is given by arbitrary functions.  The parameters and the folding of the inserted
normalization are in `Verif.Subst.ReconModel`.
-/

namespace MCT.Moment

inductive Fw where
  | keras | torch
  deriving DecidableEq

/-! ### Which layers are marked -/

/-- Kinds of nodes: convolutions with the operation types matched by the substitution, other layers with a kernel
(`Dense`, `Linear`, `Conv1D`, ...), normalizations of the model itself, and the rest. -/
inductive Kind where
  | conv | dense | bn | other
  deriving DecidableEq

structure Node where
  kind : Kind
  /-- `is_reused` -/
  reused : Bool
  /-- The prior information has a mean and a standard deviation, from a folded normalization. -/
  prior : Bool
  /-- Some candidate quantizes the kernel with power of two thresholds. -/
  pot : Bool
  /-- The kernel is quantized. -/
  quantized : Bool
  /-- The node has constant inputs. -/
  positional : Bool

def Node.hasKernel (n : Node) : Bool := decide (n.kind = .conv) || decide (n.kind = .dense)

/-- Whether a normalization is inserted after a node (batchnorm_reconstruction.py:85-108; the substitution is used
only if the correction is enabled: keras_implementation.py:321-324). -/
def reconstructed (enabled : Bool) (n : Node) : Bool :=
  enabled && decide (n.kind = .conv) && !n.reused && n.prior && !n.pot

/-- The flag `weights_second_moment_correction` of a node: from the configuration for every node
(node_quantization_config.py:443-449), reset only in the nodes the substitution matches
(batchnorm_reconstruction.py:85-108). -/
def flag (enabled : Bool) (n : Node) : Bool :=
  if enabled && decide (n.kind = .conv) then reconstructed enabled n else enabled

/-- Whether the bias of a node is corrected (compute_bias_correction_of_graph.py:43-57,76-78,
apply_bias_correction_to_graph.py:43-52). -/
def biasCorrected (enabled bias : Bool) (n : Node) : Bool :=
  bias && n.hasKernel && n.quantized && !n.positional && !flag enabled n

/-! ### The run over the representative dataset -/

variable {V K : Type}

/-- A normalization layer: its statistics per channel, the weight `rho` of a new batch (one minus `momentum` in
Keras, `momentum` in PyTorch), the flag of its node, whether the layer is trainable when built; what it computes
in inference and in training, and the statistics of a batch (`none`: PyTorch refuses one value per channel). -/
structure Bn (V K : Type) where
  mean : Nat → K
  var : Nat → K
  rho : K
  flagged : Bool
  trainable : Bool
  infer : (Nat → K) → (Nat → K) → V → V
  train : V → V
  batch : V → Option ((Nat → K) × (Nat → K))

inductive Op (V K : Type) where
  | bn (b : Bn V K)
  /-- Dropout: what it does in training in a given pass. -/
  | dropout (mask : Nat → V → V)
  | fn (f : V → V)

/-- A layer: its argument is made from the batch and the outputs of earlier layers. -/
structure Layer (V K : Type) where
  arg : List V → V
  op : Op V K

/-- Whether a normalization runs in training mode.  Keras: `layer.trainable = True` for the marked ones and a call
with `training=True` (keras/…/apply_second_moment_correction.py:44-53).  PyTorch: the model is put in evaluation
mode and the marked ones in training mode (pytorch/…/apply_second_moment_correction.py:42-51). -/
def trains (fw : Fw) (b : Bn V K) : Bool :=
  match fw with
  | .keras => b.flagged || b.trainable
  | .torch => b.flagged

variable [Ring K]

/-- The moving average of both frameworks. -/
def mix (rho : K) (old new : Nat → K) : Nat → K := fun c => (1 - rho) * old c + rho * new c

/-- One layer in a pass: its output and the layer after it. -/
def runOp (fw : Fw) (pass : Nat) (x : V) : Op V K → Option (V × Op V K)
  | .bn b =>
    if trains fw b then
      (b.batch x).map fun s => (b.train x, .bn { b with mean := mix b.rho b.mean s.1, var := mix b.rho b.var s.2 })
    else some (b.infer b.mean b.var x, .bn b)
  | .dropout mask =>
    match fw with
    | .keras => some (mask pass x, .dropout mask)
    | .torch => some (x, .dropout mask)
  | .fn f => some (f x, .fn f)

/-- The layers of a model in topological order on a batch; `env` holds the batch and the outputs so far. -/
def runModel (fw : Fw) (pass : Nat) : List V → List (Layer V K) → Option (List (Layer V K))
  | _, [] => some []
  | env, l :: ls =>
    (runOp fw pass (l.arg env) l.op).bind fun p =>
      (runModel fw pass (env ++ [p.1]) ls).map fun r => { l with op := p.2 } :: r

/-- All batches (`for data in representative_data_gen()`). -/
def runAll (fw : Fw) : Nat → List V → List (Layer V K) → Option (List (Layer V K))
  | _, [], ls => some ls
  | pass, d :: ds, ls => (runModel fw pass [d] ls).bind fun ls' => runAll fw (pass + 1) ds ls'

/-- What is written back to the graph: the statistics of the marked normalizations
(keras: lines 56-67, pytorch: lines 56-68). -/
def writeBack (old new : Layer V K) : Layer V K :=
  match old.op with
  | .bn b => if b.flagged then new else old
  | _ => old

/-- `apply_second_moment_correction` of a framework. -/
def correct (fw : Fw) (ds : List V) (ls : List (Layer V K)) : Option (List (Layer V K)) :=
  (runAll fw 0 ds ls).map fun ls' => List.zipWith writeBack ls ls'

end MCT.Moment
