/-
Model of the datasets and of the losses of GPTQ training.

Sources (under /repo/model_compression_toolkit):
  core/pytorch/data_util.py, core/keras/data_util.py;
  gptq/pytorch/gptq_training.py, gptq/keras/gptq_training.py (preparation of the data loaders, training loop);
  gptq/pytorch/gptq_loss.py, gptq/keras/gptq_loss.py; gptq/common/gptq_training.py;
  trainable_infrastructure/common/util.py.
-/
import Mathlib.Algebra.BigOperators.Group.List.Basic
import Mathlib.Algebra.Field.Basic
import Mathlib.Order.MinMax
import Mathlib.Data.List.Basic

namespace MCT.Loss

/-! ### Datasets -/

section data
variable {X : Type}

/-- `zip(*inputs)`: the samples of a batch, given as one list of tensors per input; the shortest list decides. -/
def zipStar : List (List X) → List (List X)
  | [] => []
  | l :: ls => (List.range ((ls.map List.length).foldl min l.length)).filterMap fun i =>
      (l :: ls).mapM fun t => t[i]?

/-- `flat_gen_fn`: sample by sample. (`core/pytorch/data_util.py` 21-36, `core/keras/data_util.py` 38-54) -/
def flatGen (batches : List (List (List X))) : List (List X) := batches.flatMap zipStar

/-- `orig_batch_size`: the length of the first input of the first batch; a generator without batches raises. -/
def origBatch (batches : List (List (List X))) : Option ℕ :=
  batches.head?.bind fun b => b.head?.map List.length

/-- The loop of `FixedDatasetFromGenerator`: batches are read until there are enough samples. (92-99) -/
def collect (n : Option ℕ) : List (List (List X)) → List (List X) → List (List X)
  | [], acc => acc
  | b :: rest, acc =>
    let acc' := acc ++ zipStar b
    match n with
    | some k => if k ≤ acc'.length then acc'.take k else collect n rest acc'
    | none => collect n rest acc'

/-- `FixedDatasetFromGenerator` (PyTorch, 81-103): the stored samples; too few samples raise. -/
def fixedTorch (n : Option ℕ) (batches : List (List (List X))) : Option (List (List X)) :=
  (origBatch batches).bind fun _ =>
    let s := collect n batches []
    match n with
    | some k => if s.length < k then none else some s
    | none => some s

/-- `FixedTFDataset` (Keras, 91-117): `if n_samples and ...`, and the first sample is read for its shapes. -/
def fixedKeras (n : Option ℕ) (batches : List (List (List X))) : Option (List (List X)) :=
  (origBatch batches).bind fun _ =>
    let s := collect n batches []
    match n with
    | some k => if k ≠ 0 ∧ s.length < k then none else if s = [] then none else some s
    | none => if s = [] then none else some s

/-- Consecutive batches of `k + 1` elements, the last may be smaller: `DataLoader` and `Dataset.batch`. -/
def chunksFrom {α : Type} (k : ℕ) : ℕ → List α → List (List α)
  | 0, _ => []
  | _ + 1, [] => []
  | fuel + 1, x :: l => (x :: l).take (k + 1) :: chunksFrom k fuel ((x :: l).drop (k + 1))

/-- Batches of `size` elements; a size of zero raises. -/
def chunks {α : Type} (size : ℕ) (l : List α) : Option (List (List α)) :=
  match size with
  | 0 => none
  | k + 1 => some (chunksFrom k l.length l)

/-- The Hessian scores of the stored samples, computed batch by batch in the order of the samples
(`_prepare_train_dataloader_sla`, PyTorch 96-114, Keras 111-137; `fetch_hessian` with `force_compute`). `score s` are
the scores of the layers for one sample. -/
def sampleWeights {S R : Type} (score : S → List R) (hessBatch : ℕ) (samples : List S) : Option (List (List R)) :=
  (chunks hessBatch samples).map fun bs => bs.flatMap fun b => b.map score

/-- `FixedSampleInfoDataset` (PyTorch 112-132, Keras 126-166): samples with their weights. -/
def withInfo {S W : Type} (samples : List S) (info : List W) : Option (List (S × W)) :=
  if info.length = samples.length then some (samples.zip info) else none

/-- One epoch of the data loader of the sample layer attention: the stored pairs in the order of a permutation,
in batches of the original size. (PyTorch 115-121, Keras 140-157) -/
def slaEpoch {S R : Type} (score : S → List R) (hessBatch orig : ℕ) (order : List ℕ) (samples : List S) :
    Option (List (List (S × List R))) :=
  (sampleWeights score hessBatch samples).bind fun w =>
    (withInfo samples w).bind fun ds => (order.mapM fun i => ds[i]?).bind (chunks orig)

/-- One epoch without attention: the samples of a pass over the generator, all with the same weights.
(PyTorch 123-156, Keras 159-197) -/
def plainEpoch {W : Type} (w : W) (batches : List (List (List X))) : Option (List (List (List X × W))) :=
  (origBatch batches).bind fun k => chunks k ((flatGen batches).map fun s => (s, w))

/-- `get_total_grad_steps` (`util.py` 22-27): the number of batches of the generator. -/
def gradSteps (batches : List (List (List X))) : ℕ := batches.length

/-- A call of a PyTorch model with the list of inputs as one argument (`gptq_training.py` 265, 306: `model(input_tensors)`,
with `forward(*args)` reading `args[i]` for input `i`): the inputs of the placeholders. -/
def callWithList (inputs : List X) (nInputs : ℕ) : Option (List (List X)) :=
  (List.range nInputs).mapM fun i => ([inputs] : List (List X))[i]?

end data

/-! ### Losses -/

section loss
variable {R : Type} [Field R]

/-- Mean of a list. -/
def mean (l : List R) : R := l.sum / (l.length : R)

/-- Sum of squared differences of two tensors given by their elements. -/
def sqDiff (y x : List R) : List R := List.zipWith (fun a b => (a - b) ^ 2) y x

/-- `mse_loss` of PyTorch (20-31), normalized by default. -/
def mseTorch (y x : List R) : R := mean (sqDiff x y) / mean (x.map fun a => a ^ 2)

/-- `mse_loss` of Keras (20-32): with `normalized=True` the loss is not normalized. -/
def mseKeras (normalized : Bool) (y x : List R) : R :=
  if normalized then mean (sqDiff y x) else mean (sqDiff y x) / mean (x.map fun a => a ^ 2)

/-- `mse_loss_per_tensor` of Keras with p = 2 (104-120). -/
def mseTensorKeras (normalized : Bool) (y x : List R) : R :=
  if normalized then mean (sqDiff y x) / mean (x.map fun a => a ^ 2) else mean (sqDiff y x)

/-- The weights of the layers as they reach the loss: the data loader repeats them for every sample of the batch.
`flat` is the shape `[layers]` (scores with logarithmic normalization, or no scores); `column` the shape
`[layers, 1]` of scores without it (`compute_hessian_based_weights`, 206-218: the mean over images of scores of
shape `[images, layers, 1]`). -/
inductive Weights (R : Type)
  | flat (w : List R)
  | column (w : List R)

/-- `loss_weights * stack(losses)` for a batch of `b` samples: the elements of the product by the rules of
broadcasting. `[b, n] * [n]` multiplies layer by layer; `[b, n, 1] * [n]` multiplies every weight with every loss. -/
def broadcast (b : ℕ) (w : Weights R) (losses : List R) : Option (List R) :=
  match w with
  | .flat l => if l.length = losses.length then
      some (List.replicate b (List.zipWith (· * ·) l losses)).flatten else none
  | .column l => some (List.replicate b (l.flatMap fun a => losses.map fun c => a * c)).flatten

/-- `multiple_tensors_mse_loss` of PyTorch (34-65). -/
def multiTorch (b : ℕ) (w : Option (Weights R)) (ys xs : List (List R)) : Option R :=
  let losses := List.zipWith mseTorch ys xs
  match w with
  | some w => (broadcast b w losses).map mean
  | none => some (mean losses)

/-- `GPTQMultipleTensorsLoss` of Keras (123-190). -/
def multiKeras (b : ℕ) (norm : Bool) (w : Option (Weights R)) (ys xs : List (List R)) : Option R :=
  let losses := List.zipWith (fun y x => mseTensorKeras norm y x) ys xs
  match w with
  | some w => (broadcast b w losses).map List.sum
  | none => some (mean losses)

/-- The norm of the difference of one sample (`sample_layer_attention_loss`, PyTorch 91-93, Keras 93-95): the squares are
added along the first axis after the batch and averaged over the others. The tensor is given as the list along that
axis of the elements of the others: channels in PyTorch, rows of the image in Keras. -/
def slaNorm (y x : List (List R)) : R :=
  mean (((List.zipWith sqDiff y x).foldr (List.zipWith (· + ·)) (List.replicate ((x.headD []).length) 0)))

/-- The loss of sample layer attention: `w` are the rows of the samples; `norms` the norms of all samples, layer by
layer. `none`: no layer, or a division by zero, which gives no number. (PyTorch 68-99, Keras 69-101) -/
def slaLoss [LinearOrder R] (w : List (List R)) (norms : List (List R)) : Option R :=
  let col := fun (i : ℕ) => w.map fun r => r.getD i 0
  let num := (norms.zipIdx.map fun p => mean (List.zipWith (· * ·) (col p.2) p.1)).sum
  match norms.zipIdx.map fun p => mean (col p.2) with
  | [] => none
  | m :: ms => if ms.foldl max m = 0 then none else some (num / ms.foldl max m)

end loss

end MCT.Loss
