/-
Model of the statistics of the generated images and of the alignment loss.

Sources (under /repo/model_compression_toolkit/data_generation):
  common/optimization_utils.py 158-230, 345-490; pytorch/optimization_utils.py 140-162, 297-365;
  keras/optimization_utils.py 147-220, 336-404;
  pytorch/optimization_functions/batchnorm_alignment_functions.py, bn_layer_weighting_functions.py and the same
  files of Keras.

All statistics are per channel, and channels do not mix: a layer and a channel of it are treated together as
one source of values.  The network is given by the values of that source on an image (`net`), one for every
position.
-/
import Verif.DataGen.Spec
import Mathlib.Data.Real.Sqrt

namespace MCT.DataGen

section stats
variable {K : Type} [Field K]

/-- `torch.mean(x, dim=mean_axis)` on the values of a channel in a batch. -/
def avg (l : List K) : K := l.sum / (l.length : K)

/-- `torch.mean(torch.pow(x, 2.0), dim=mean_axis)`. -/
def avgSq (l : List K) : K := avg (l.map fun x => x ^ 2)

/-- The second result of `tf.nn.moments`: the variance. -/
def momentsVar (l : List K) : K := avg (l.map fun x => (x - avg l) ^ 2)

/-- `calc_bn_stats_from_activations` of PyTorch for one source: mean and second moment.
(`pytorch/optimization_utils.py` 345-360) -/
def statTorch (l : List K) : K × K := (avg l, avgSq l)

/-- `calc_bn_stats_from_activations` of Keras for one source: what is kept as "second moment" is the variance.
(`keras/optimization_utils.py` 394-404) -/
def statKeras (l : List K) : K × K := (avg l, momentsVar l)

/-- `get_layer_accumulated_stats` of PyTorch before the square root: the statistics of the batches are averaged
with equal weights, and the variance is the second moment minus the square of the mean.
(`pytorch/optimization_utils.py` 150-160) -/
def accumTorch (stats : List (K × K)) : K × K :=
  let m := (stats.map Prod.fst).sum / (stats.length : K)
  let q := (stats.map Prod.snd).sum / (stats.length : K)
  (m, q - m ^ 2)

/-- `get_layer_accumulated_stats` of Keras: both are averaged. (`keras/optimization_utils.py` 158-167) -/
def accumKeras (stats : List (K × K)) : K × K :=
  ((stats.map Prod.fst).sum / (stats.length : K), (stats.map Prod.snd).sum / (stats.length : K))

/-- Values of a source of statistics over what is kept for a batch: the images themselves for the input of the
network (`IMAGE_INPUT`), else the activations of the run of the network. -/
def keptValues (isInput : Bool) (net : Img K → List K) (k : Kept K) : List K :=
  if isInput then k.imgs.flatMap net else k.acts.flatMap net

end stats

/-! ### The loss -/

/-- `l2_square`; `den` is `bn_mean.size(0)`, the number of channels (1 for the input of the network in PyTorch,
whose statistics have shape `(1, 3)`). (`batchnorm_alignment_functions.py` 23-40) -/
noncomputable def l2Square (den : ℕ) (bnMean inMean bnStd inStd : List ℝ) : ℝ :=
  (List.zipWith (fun a b => (a - b) ^ 2) inMean bnMean).sum / den +
    (List.zipWith (fun a b => (a - b) ^ 2) inStd bnStd).sum / den

/-- A layer in the loss: its weight, its size, the statistics of the network and those of the images. -/
structure Aligned where
  weight : ℝ
  den : ℕ
  bnMean : List ℝ
  bnVar : List ℝ
  imgMean : List ℝ
  imgVar : List ℝ

/-- `compute_bn_loss` of PyTorch: the deviation of the network is the root of its variance
(`pytorch/model_info_exctractors.py` 64-69), that of the images the root of the variance plus `eps`.
(`common/optimization_utils.py` 158-212) -/
noncomputable def lossTorch (eps : ℝ) (ls : List Aligned) : ℝ :=
  (ls.map fun l => l.weight * l2Square l.den l.bnMean l.imgMean (l.bnVar.map Real.sqrt)
    (l.imgVar.map fun v => Real.sqrt (v + eps))).sum

/-- `compute_bn_loss` of Keras: `eps` is added on both sides. (`keras/optimization_utils.py` 169-220) -/
noncomputable def lossKeras (eps : ℝ) (ls : List Aligned) : ℝ :=
  (ls.map fun l => l.weight * l2Square l.den l.bnMean l.imgMean (l.bnVar.map fun v => Real.sqrt (v + eps))
    (l.imgVar.map fun v => Real.sqrt (v + eps))).sum

/-- `average_bn_layer_weighting_fn`, `average_layer_weighting_fn`: one over the number of layers. -/
noncomputable def averageWeights (names : List String) : List (String × ℝ) :=
  names.map fun n => (n, 1 / (names.length : ℝ))

/-- `first_bn_multiplier_weighting_fn` of PyTorch: 10 for the first name, 1 for the others.
(`pytorch/optimization_functions/bn_layer_weighting_functions.py` 43-61; with no names it is an IndexError) -/
noncomputable def firstWeightsTorch : List String → Option (List (String × ℝ))
  | [] => none
  | n :: l => some ((n, 10) :: l.map fun m => (m, 1))

/-- `first_bn_multiplier_weighting_fn` of Keras: the same over the number of layers.
(`keras/optimization_functions/bn_layer_weighting_functions.py` 42-61) -/
noncomputable def firstWeightsKeras : List String → Option (List (String × ℝ))
  | [] => none
  | n :: l => some ((n, 10 / ((n :: l).length : ℝ)) :: l.map fun m => (m, 1 / ((n :: l).length : ℝ)))

/-! ### Specification -/

section spec
variable {K : Type} [Field K]

/-- The mean of values. -/
def IsMeanOf (m : K) (l : List K) : Prop := m * l.length = l.sum

/-- The variance of values around their mean. -/
def IsVarOf (v : K) (l : List K) : Prop := ∃ m, IsMeanOf m l ∧ v * l.length = (l.map fun x => (x - m) ^ 2).sum

end spec

/-- The statistics of a layer agree. -/
def Agrees (l : Aligned) : Prop := l.imgMean = l.bnMean ∧ l.imgVar = l.bnVar

/-- A layer that can be compared: as many values on both sides, variances that are not negative, a positive
weight. -/
structure Comparable (l : Aligned) : Prop where
  weight_pos : 0 < l.weight
  den_pos : 0 < l.den
  len_mean : l.imgMean.length = l.bnMean.length
  len_var : l.imgVar.length = l.bnVar.length
  img_nonneg : ∀ v ∈ l.imgVar, 0 ≤ v
  bn_nonneg : ∀ v ∈ l.bnVar, 0 ≤ v

end MCT.DataGen
