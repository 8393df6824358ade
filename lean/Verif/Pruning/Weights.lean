import Mathlib.Algebra.BigOperators.Group.List.Basic
import Mathlib.Data.List.Basic

/-!
# Structured pruning: the values of the weights

Models `apply_inner_section_mask` (core/common/pruning/pruning_section.py:77-96) with the weight slicing of
`core/keras/pruning/pruning_keras_implementation.py` and
`core/pytorch/pruning/pruning_pytorch_implementation.py`.
-/

namespace MCT.Pruning

/-- Indices of the kept channels: `np.where(mask)[0]`. -/
def kept (mask : List Bool) : List ℕ := (List.range mask.length).filter fun c => mask.getD c false

/-- `v.compress(mask_bool, axis)` along the axis of the list (numpy): the entries at the kept indices. -/
def compress {α : Type} (mask : List Bool) (v : List α) : List α := (kept mask).filterMap fun c => v[c]?

/-- The node of an intermediate layer: its weight attributes by name.  Each attribute is a list along its
last axis (simplification: entries of the other axes are part of the element type). -/
abbrev Attrs (α : Type) := List (String × List α)

/-- Keras `prune_intermediate_node` (pruning_keras_implementation.py:53-72). -/
def kerasPruneIntermediate {α : Type} (weights : Attrs α) (mask : List Bool) : Attrs α :=
  weights.map fun kv => (kv.1, compress mask kv.2)

/-- What PyTorch `prune_intermediate_node` distinguishes (pruning_pytorch_implementation.py:73-79). -/
inductive InterKind
  | batchNorm
  | prelu (numParameters : ℕ)
  | other

/-- PyTorch `prune_intermediate_node` (pruning_pytorch_implementation.py:54-84): `node.weights` is set to
the empty dictionary (line 72) before the loop over `node.weights.items()` (82-84). -/
def torchPruneIntermediate {α : Type} (kind : InterKind) (_weights : Attrs α) (mask : List Bool) : Attrs α :=
  let nodeWeights : Attrs α := []
  let pruningEn : Bool := match kind with
    | .batchNorm => true
    | .prelu k => decide (k > 1)
    | .other => true
  if pruningEn then nodeWeights.map fun kv => (kv.1, compress mask kv.2) else nodeWeights

/-- A convolution or dense layer with one group: `kernel[o][i]` is the filter from input channel `i` to
output channel `o`. -/
structure Linear (κ B : Type) where
  kernel : List (List κ)
  bias : List B

/-- Entry node (pruning_keras_implementation.py:198-228, pruning_pytorch_implementation.py:216-245): kernel
and bias are sliced along the output channels. -/
def Linear.pruneEntry {κ B : Type} (mask : List Bool) (l : Linear κ B) : Linear κ B :=
  ⟨compress mask l.kernel, compress mask l.bias⟩

/-- Exit node: the kernel is sliced along the input channels (same functions, `is_exit_node`). -/
def Linear.pruneExit {κ B : Type} (mask : List Bool) (l : Linear κ B) : Linear κ B :=
  { l with kernel := l.kernel.map (compress mask) }

/-- What such a layer computes: `act` is the action of a filter on a feature map, the results are summed
over the input channels and the bias is added. -/
def Linear.eval {κ V W : Type} [AddCommMonoid W] (act : κ → V → W) (l : Linear κ W) (x : List V) : List W :=
  List.zipWith (fun row b => (List.zipWith act row x).sum + b) l.kernel l.bias

/-- A channel-wise intermediate layer (batch normalization, activation, …): channel `c` of the output
depends on channel `c` of the input and on the entries `c` of the weights. -/
structure ChannelLayer (α V : Type) where
  op : List (String × Option α) → V → V
  weights : Attrs α

/-- Its output. -/
def ChannelLayer.eval {α V : Type} (l : ChannelLayer α V) (x : List V) : List V :=
  x.mapIdx fun c v => l.op (l.weights.map fun kv => (kv.1, kv.2[c]?)) v

/-- A section: entry, intermediate and exit layers. -/
structure SectionLayers (κ α V : Type) where
  entry : Linear κ V
  inters : List (ChannelLayer α V)
  exit : Linear κ V

/-- `apply_inner_section_mask` for Keras (pruning_section.py:77-96). -/
def SectionLayers.prune {κ α V : Type} (mask : List Bool) (s : SectionLayers κ α V) : SectionLayers κ α V where
  entry := s.entry.pruneEntry mask
  inters := s.inters.map fun l => { l with weights := kerasPruneIntermediate l.weights mask }
  exit := s.exit.pruneExit mask

/-- The feature maps that reach the exit layer. -/
def SectionLayers.hidden {κ α V : Type} [AddCommMonoid V] (act : κ → V → V) (s : SectionLayers κ α V)
    (x : List V) : List V := s.inters.foldl (fun z l => l.eval z) (s.entry.eval act x)

/-- What the section computes. -/
def SectionLayers.eval {κ α V : Type} [AddCommMonoid V] (act : κ → V → V) (s : SectionLayers κ α V)
    (x : List V) : List V := s.exit.eval act (s.hidden act x)

end MCT.Pruning
