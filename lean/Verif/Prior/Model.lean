import Verif.Prior.Spec
import Verif.Collect.Props

/-!
# Model of the prior information about the outputs of layers

`core/common/node_prior_info.py`, `core/keras/keras_node_prior_info.py`, `core/pytorch/pytorch_node_prior_info.py`
and the tables of bounds of `core/keras/default_framework_info.py` and `core/pytorch/default_framework_info.py`.
The mean and the deviation taken from batch normalisations are not modelled here.
-/

namespace MCT.Prior

open MCT.PriorSpec MCT.Collect

/-- The names of activation functions in the table (keras/constants.py). -/
inductive ActName where
  | softmax | sigmoid | linear | identity | tanh | swish | relu | selu | gelu

/-- Keras layers and TensorFlow operators; `other` is any layer or operator absent from the tables. -/
inductive KLayer (ι : Type) where
  | softmaxLayer
  | eluLayer (alpha : ℝ)
  | reluLayer (maxValue : Option ℝ) (slope threshold : ℝ)
  | activation (a : ActName)
  | silu | swish | sigmoid | tanh | relu | relu6
  | gelu (approximate : Bool)
  | elu | selu | softplus | softmax
  | other (f : (ι → ℝ) → ι → ℝ)

/-- PyTorch modules and functions (each module stands for the function of the same name as well). -/
inductive TLayer (ι : Type) where
  | softmax | sigmoid | hardsigmoid | relu | relu6
  | gelu (approximate : Bool)
  | selu | silu
  | other (f : (ι → ℝ) → ι → ℝ)

/-- `_activation_min_max_mapping` (keras/default_framework_info.py:74-84); `SOFTMAX_THRESHOLD` is 1
(constants.py:102). -/
noncomputable def activationTable : ActName → Option ℝ × Option ℝ
  | .softmax => (some 0, some 1)
  | .sigmoid => (some 0, some 1)
  | .linear => (none, none)
  | .identity => (none, none)
  | .tanh => (some (-1), some 1)
  | .swish => (some (-0.279), none)
  | .relu => (some 0, none)
  | .selu => (some (-1.76), none)
  | .gelu => (some (-0.17), none)

/-- `KerasInfo.get_layer_min_max` (keras/default_framework_info.py:90-104, 115-133).  The layer is given by its class
(base_node.py:104), so that `isinstance(layer, Activation)` is false for every layer and the table of activation
functions is not reached. -/
noncomputable def kTable {ι : Type} : KLayer ι → Option ℝ × Option ℝ
  | .softmaxLayer => (some 0, some 1)
  | .eluLayer _ => (some (-1), none)
  | .silu => (some (-0.279), none)
  | .swish => (some (-0.279), none)
  | .sigmoid => (some 0, some 1)
  | .tanh => (some (-1), some 1)
  | .relu => (some 0, none)
  | .relu6 => (some 0, none)
  | .gelu _ => (some (-0.17), none)
  | .elu => (some (-1), none)
  | .selu => (some (-1.76), none)
  | .softplus => (some 0, none)
  | .softmax => (some 0, some 1)
  | .reluLayer _ _ _ => (none, none)
  | .activation _ => (none, none)
  | .other _ => (none, none)

/-- `_get_min_max_outputs` (keras_node_prior_info.py:41-59). -/
noncomputable def kMinMax {ι : Type} : KLayer ι → Option ℝ × Option ℝ
  | .reluLayer _ slope threshold => (if slope = 0 then some threshold else none, none)
  | l => kTable l

/-- `PyTorchInfo._layer_min_max_mapping`, `get_layer_min_max` (pytorch/default_framework_info.py:66-82,
framework_info.py:84-98, pytorch_node_prior_info.py:38). -/
noncomputable def tMinMax {ι : Type} : TLayer ι → Option ℝ × Option ℝ
  | .softmax => (some 0, some 1)
  | .sigmoid => (some 0, some 1)
  | .hardsigmoid => (some 0, some 1)
  | .relu => (some 0, none)
  | .relu6 => (some 0, none)
  | .gelu _ => (some (-0.17), none)
  | .selu => (some (-1.76), none)
  | .silu => (some (-0.279), none)
  | .other _ => (none, none)

/-- `NodePriorInfo.get_shifted_prior_info` (node_prior_info.py:44-69), the bounds. -/
def shifted {K : Type} [Add K] (p : Option K × Option K) (s : K) : Option K × Option K :=
  (p.1.map (· + s), p.2.map (· + s))

/-- `NodePriorInfo.is_output_bounded` (node_prior_info.py:71-77); the bounds of the tables are finite. -/
def isBounded {K : Type} (p : Option K × Option K) : Bool := p.1.isSome && p.2.isSome

/-- `create_stats_collector_for_node` (model_collector.py:32-56), the collector of the extremes of a node whose
activation is quantized: the bounds of the node are its initial values. -/
def collectorOf {K : Type} [Field K] [LinearOrder K] [FloorRing K] (n : ℕ) (p : Option K × Option K) :
    MinMax n K := MinMax.init p.1 p.2

end MCT.Prior
