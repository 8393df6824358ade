/-
Model of the generation of images out of the statistics of the batch normalization layers of a network
(`pytorch_data_generation_experimental`, `keras_data_generation_experimental`).

Sources (under /repo/model_compression_toolkit/data_generation):
  common/data_generation.py, common/image_pipeline.py, common/optimization_utils.py
  pytorch/pytorch_data_generation.py, pytorch/optimization_utils.py, pytorch/image_pipeline.py,
  pytorch/image_operations.py, pytorch/optimization_functions/*.py
  keras/keras_data_generation.py, keras/optimization_utils.py, keras/image_pipeline.py,
  keras/image_operations.py, keras/optimization_functions/*.py

Numbers are exact.  An exception is `none`.  The network, the gradients, the optimizer and the random
augmentation are given by functions that may depend on everything they can read; random choices are given by
lists (schedules), and theorems range over all of them.  Moving tensors between devices and automatic mixed
precision are left out.
-/
import Mathlib.Data.Rat.Floor
import Mathlib.Algebra.Order.Field.Basic
import Mathlib.Algebra.BigOperators.Group.List.Basic

namespace MCT.DataGen

variable {K : Type} [Field K] [LinearOrder K]

/-- An image: three nested axes.  PyTorch: channel, row, column.  Keras: row, column, channel
(`pytorch/constants.py` 18, `keras/constants.py` 16). -/
abbrev Img (K : Type) := List (List (List K))

/-- A batch of images (axis 0 in both frameworks). -/
abbrev Batch (K : Type) := List (Img K)

/-! ### The range of pixels -/

/-- `create_valid_grid` for one channel: the 256 pixel values, normalized.
(`pytorch/image_operations.py` 26-41, `keras/image_operations.py` 113-132) -/
def gridRow (mean std : K) : List K := (List.range 256).map fun (v : ℕ) => ((v : K) - mean) / std

/-- `valid_grid[i, :].min()`; the row is not empty. -/
def rowMin : List K → K
  | [] => 0
  | x :: l => l.foldl min x

/-- `valid_grid[i, :].max()`. -/
def rowMax : List K → K
  | [] => 0
  | x :: l => l.foldl max x

/-- `torch.clamp(x, lo, hi)`, `tf.clip_by_value`. -/
def clamp (lo hi x : K) : K := min (max x lo) hi

/-- One element of the loop of `clip_images`: clamp, and with `reflection` mirror what is outside. -/
def clipOne (reflection : Bool) (lo hi x : K) : K :=
  if reflection then 2 * clamp lo hi x - x else clamp lo hi x

/-- `clip_images` of PyTorch on one image: channel `i` is clipped by row `i` of the grid; an image with fewer
channels than the grid has rows is an IndexError. (`pytorch/image_pipeline.py` 153-173) -/
def clipTorch (reflection : Bool) (grid : List (List K)) (img : Img K) : Option (Img K) :=
  if img.length < grid.length then none
  else some (List.zipWith (fun g ch => ch.map fun row => row.map (clipOne reflection (rowMin g) (rowMax g)))
    grid img ++ img.drop grid.length)

/-- `clip_images` of Keras on one image.  The loop reads `images[:, i, :, :]`, which is row `i` of an image
whose channels are last, and writes it to entry `i` of a `TensorArray` with as many entries as the image has
rows; entries that are never written are zero.  An image with fewer rows than the grid is an error.
(`keras/image_operations.py` 84-110) -/
def clipKeras (reflection : Bool) (grid : List (List K)) (img : Img K) : Option (Img K) :=
  if img.length < grid.length then none
  else some (List.zipWith (fun g row => row.map fun px => px.map (clipOne reflection (rowMin g) (rowMax g)))
    grid img ++ (img.drop grid.length).map fun row => row.map fun px => px.map fun _ => 0)

/-! ### Smoothing and cropping -/

/-- Element `(i, j)` of a matrix with zeros around it. -/
def at2 (m : List (List K)) (i j : ℤ) : K :=
  if 0 ≤ i ∧ 0 ≤ j then (m.getD i.toNat []).getD j.toNat 0 else 0

/-- `F.conv2d` of one channel with the smoothing kernel, stride 1 and padding `size // 2`.  The kernel has the
weights of a Gaussian; here it is any square matrix. (`pytorch/image_operations.py` 68-78) -/
def smoothChannel (kern : List (List K)) (m : List (List K)) : List (List K) :=
  let k := kern.length
  let p := k / 2
  let w := (m.headD []).length
  (List.range (m.length + 2 * p + 1 - k)).map fun (i : ℕ) => (List.range (w + 2 * p + 1 - k)).map fun (j : ℕ) =>
    ((List.range k).map fun (a : ℕ) => ((List.range k).map fun (b : ℕ) =>
      at2 kern a b * at2 m ((i : ℤ) + a - p) ((j : ℤ) + b - p)).sum).sum

/-- The same for an image of Keras: every channel on its own, `padding='SAME'`
(`keras/image_operations.py` 162-172; an odd kernel is centred, so `SAME` pads `size // 2` on each side). -/
def smoothKeras (kern : List (List K)) (img : Img K) : Img K :=
  let k := kern.length
  let p := k / 2
  let w := (img.headD []).length
  (List.range (img.length + 2 * p + 1 - k)).map fun (i : ℕ) => (List.range (w + 2 * p + 1 - k)).map fun (j : ℕ) =>
    (List.range 3).map fun (c : ℕ) =>
      ((List.range k).map fun (a : ℕ) => ((List.range k).map fun (b : ℕ) =>
        at2 kern a b * at2 (img.map fun row => row.map fun px => px.getD c 0)
          ((i : ℤ) + a - p) ((j : ℤ) + b - p)).sum).sum

/-- `round(d / 2.0)` of Python: halves go to the even neighbour. -/
def roundHalf (d : ℕ) : ℕ := if d % 2 = 0 then d / 2 else if (d / 2) % 2 = 0 then d / 2 else d / 2 + 1

/-- `torchvision.transforms.CenterCrop` along one axis of length `n`: `int(round((n - c) / 2.0))`.  An image
smaller than the crop would be padded; the images here are never smaller, this case is `none`. -/
def centerCropTorch {α : Type} (c : ℕ) (l : List α) : Option (List α) :=
  if l.length < c then none else some ((l.drop (roundHalf (l.length - c))).take c)

/-- `center_crop` of Keras along one axis: the offset is `(n - c) // 2`, and `crop_to_bounding_box` refuses a
box outside the image. (`keras/image_operations.py` 42-67) -/
def centerCropKeras {α : Type} (c : ℕ) (l : List α) : Option (List α) :=
  if l.length < c then none else some ((l.drop ((l.length - c) / 2)).take c)

/-! ### Configuration and pipelines -/

/-- `ImagePipelineType`. -/
inductive Pipe
  | identity
  | smoothing
  deriving DecidableEq

/-- `DataInitType`. -/
inductive Init
  | gaussian
  | diverse
  deriving DecidableEq

/-- `SchedulerType`. -/
inductive Sched
  | plateau
  | plateauReset
  | step
  deriving DecidableEq

/-- `DataGenerationConfig` with `n_images` and `output_image_size` as height and width (an integer or a tuple
of one element stands for both, `common/image_pipeline.py` 37-57), the normalization, and the kernel of the
smoothing. -/
structure Cfg (K : Type) where
  nImages : ℕ
  batchSize : ℕ
  nIter : ℕ
  outH : ℕ
  outW : ℕ
  extraH : ℕ
  extraW : ℕ
  pipe : Pipe
  clipping : Bool
  init : Init
  sched : Sched
  allImages : Bool
  mean : List K
  std : List K
  kern : List (List K)

/-- `create_valid_grid(means, stds)`. -/
def grid (c : Cfg K) : List (List K) := List.zipWith gridRow c.mean c.std

/-- `get_image_input_size`. (`pytorch/image_pipeline.py` 48-55, 111-118; `keras/image_pipeline.py` 63-70,
131-138) -/
def inputSize (c : Cfg K) : ℕ × ℕ :=
  match c.pipe with
  | .identity => (c.outH, c.outW)
  | .smoothing => (c.outH + c.extraH, c.outW + c.extraW)

/-- Side of an image made by `default_data_init_fn` of PyTorch: `crop = 32` is added to the size, and a diverse
sample goes through a 5×5 convolution with padding 1, which takes 2 away.
(`pytorch/optimization_functions/image_initilization.py` 83-130) -/
def initSide (i : Init) (n : ℕ) : ℕ :=
  match i with
  | .gaussian => n + 32
  | .diverse => n + 32 + 2 * 1 - 5 + 1

/-- Height and width of the initial images of PyTorch. -/
def torchInitSize (c : Cfg K) : ℕ × ℕ := (initSide c.init (inputSize c).1, initSide c.init (inputSize c).2)

/-- Height and width of the initial images of Keras (`keras/optimization_functions/image_initilization.py`
76-100): the size as it is. -/
def kerasInitSize (c : Cfg K) : ℕ × ℕ := inputSize c

/-- Centre crop of an image of PyTorch. -/
def cropTorch (h w : ℕ) (img : Img K) : Option (Img K) :=
  img.mapM fun ch => (centerCropTorch h ch).bind fun rows => rows.mapM (centerCropTorch w)

/-- Centre crop of an image of Keras. -/
def cropKeras (h w : ℕ) (img : Img K) : Option (Img K) :=
  (centerCropKeras h img).bind fun rows => rows.mapM (centerCropKeras w)

/-- `image_output_finalize` of PyTorch on one image. (`pytorch/image_pipeline.py` 69-79, 137-151) -/
def finalizeTorch (c : Cfg K) (img : Img K) : Option (Img K) :=
  match c.pipe with
  | .identity => some img
  | .smoothing => (cropTorch c.outH c.outW (img.map (smoothChannel c.kern))).bind fun im =>
      if c.clipping then clipTorch false (grid c) im else some im

/-- `image_output_finalize` of Keras on one image. (`keras/image_pipeline.py` 54-61, 92-110, 153-164) -/
def finalizeKeras (c : Cfg K) (img : Img K) : Option (Img K) :=
  match c.pipe with
  | .identity => some img
  | .smoothing => (cropKeras c.outH c.outW (smoothKeras c.kern img)).bind fun im =>
      if c.clipping then clipKeras false (grid c) im else some im

/-! ### Batches -/

/-- The batches of a `DataLoader` (or of `dataset.batch`) with `drop_last` off. -/
def batches {α : Type} (size : ℕ) (l : List α) : List (List α) :=
  if h : l = [] ∨ size = 0 then []
  else l.take size :: batches size (l.drop size)
termination_by l.length
decreasing_by
  simp only [not_or] at h
  have := List.length_pos_iff.mpr h.1
  simp only [List.length_drop]; omega

/-- `torch.split(batch, 1)`. -/
def splitTorch {α : Type} (b : List α) : List (List α) := b.map fun x => [x]

/-- `np.split(batch, sections)`: as many parts as `sections`, which has to divide the number of images. -/
def splitKeras {α : Type} (sections : ℕ) (b : List α) : Option (List (List α)) :=
  if sections = 0 then none
  else if b.length % sections ≠ 0 then none
  else some ((List.range sections).map fun i =>
    (b.drop (i * (b.length / sections))).take (b.length / sections))

/-! ### The optimization -/

/-- Statistics kept for one batch (`BatchStatsHolder`): `imgs` are the images whose mean and second moment are
kept for the input of the network, `acts` is the input of the run of the network whose activations gave the
statistics of its layers.  The numbers are functions of these two (`keptValues` in `Stats.lean`). -/
structure Kept (K : Type) where
  imgs : Batch K
  acts : Batch K

/-- State of `ImagesOptimizationHandler` and of the activation extractor.  `ran`: the input of the last run of
the network; `log`: iterations and batches that were optimized (not in the code: it is there to state what was
done). -/
structure St (K : Type) where
  images : List (Batch K)
  kept : List (Option (Kept K))
  ran : Option (Batch K)
  log : List (ℕ × ℕ)

/-- What the model, the loss and the optimizer do to the images of a batch: the new images may depend on
everything. (`optimization_step`, `pytorch/optimization_utils.py` 164-186, `keras/optimization_utils.py`
240-264; the constraint of the Keras variable, 127-145, computes clipped values and assigns the images as they
were, so that it does nothing) -/
abbrev Update (K : Type) := ℕ → ℕ → St K → Batch K → Batch K

/-- `image_input_manipulation`: random flip, smoothing, random crop, clipping; any function here. -/
abbrev Manip (K : Type) := ℕ → ℕ → Batch K → Batch K

/-- Body of the inner loop. (`pytorch/pytorch_data_generation.py` 306-352, `keras/keras_data_generation.py`
229-269 with 312-346)  The network runs once, on the augmented images, before the step; `update_statistics`
after the step reads the activations of that run.  `StepLR` with a step size of zero divides by zero in
`scheduler.step()`: `stepOk` says whether the scheduler's step works. -/
def stepBatch (allImages stepOk : Bool) (fin : Batch K → Option (Batch K)) (manip : Manip K)
    (upd : Update K) (i b : ℕ) (s : St K) : Option (St K) :=
  match s.images[b]? with
  | none => none
  | some x =>
    let inp := manip i b x
    let s1 : St K := { s with ran := some inp, kept := s.kept.set b (some ⟨inp, inp⟩) }
    let y := upd i b s1 x
    if stepOk = false then none
    else
      let s2 : St K := { s1 with images := s1.images.set b y, log := s1.log ++ [(i, b)] }
      if allImages then
        (fin y).bind fun f => s2.ran.bind fun r =>
          some { s2 with kept := s2.kept.set b (some ⟨f, r⟩) }
      else some s2

/-- The inner loop over the batches in the order of the schedule. -/
def runOrder (allImages stepOk : Bool) (fin : Batch K → Option (Batch K)) (manip : Manip K)
    (upd : Update K) (i : ℕ) : List ℕ → St K → Option (St K)
  | [], s => some s
  | b :: l, s => (stepBatch allImages stepOk fin manip upd i b s).bind
      (runOrder allImages stepOk fin manip upd i l)

/-- The outer loop.  `order i`: the result of `random_batch_reorder` in iteration `i`.  After every iteration
the progress bar reads `total_loss`, which no statement has set if there are no batches. -/
def runIters (allImages stepOk : Bool) (fin : Batch K → Option (Batch K)) (manip : Manip K)
    (upd : Update K) (order : ℕ → List ℕ) : List ℕ → St K → Option (St K)
  | [], s => some s
  | i :: l, s => (runOrder allImages stepOk fin manip upd i (order i) s).bind fun s1 =>
      if s1.log = [] then none else runIters allImages stepOk fin manip upd order l s1

/-- Start of the handler: with `AllImages` the statistics of every batch are taken from a run of the network
on the finalized images. (`pytorch/optimization_utils.py` 130-138, `keras/optimization_utils.py` 119-125) -/
def startKept (fin : Batch K → Option (Batch K)) : List (Batch K) → Option (List (Option (Kept K)))
  | bs => bs.mapM fun x => (fin x).map fun f => some ⟨f, f⟩

/-- State before the first iteration. -/
def start (allImages : Bool) (fin : Batch K → Option (Batch K)) (bs : List (Batch K)) : Option (St K) :=
  if allImages then (startKept fin bs).map fun ks => ⟨bs, ks, none, []⟩
  else some ⟨bs, bs.map fun _ => none, none, []⟩

/-- `int(n_iter / 3)`, the step size of `StepLR`, must not be zero when the scheduler steps.
(`pytorch/optimization_functions/scheduler_step_functions.py` 48-58) -/
def stepOk (c : Cfg K) : Bool := !(decide (c.sched = .step) && decide (c.nIter / 3 = 0))

/-- The images are finalized batch by batch. -/
def finalizeBatch (f : Img K → Option (Img K)) (b : Batch K) : Option (Batch K) := b.mapM f

/-- `pytorch_data_generation_experimental` from the initial images on: the state after the optimization, and
the images returned, each in a batch of one.  At the end a message reads `total_loss`, which is not set if
there was no iteration. (`pytorch/pytorch_data_generation.py` 231-260, 263-362;
`pytorch/optimization_utils.py` 204-224) -/
def genTorch (c : Cfg K) (manip : Manip K) (upd : Update K) (order : ℕ → List ℕ) (noise : List (Img K)) :
    Option (St K × List (Batch K)) :=
  (start c.allImages (finalizeBatch (finalizeTorch c)) (batches c.batchSize noise)).bind fun s0 =>
    (runIters c.allImages (stepOk c) (finalizeBatch (finalizeTorch c)) manip upd order
      (List.range c.nIter) s0).bind fun s =>
        (s.images.mapM (finalizeBatch (finalizeTorch c))).bind fun fs =>
          if s.log = [] then none else some (s, (fs.map splitTorch).flatten)

/-- `keras_data_generation_experimental` from the initial images on; `step` is not among its schedulers.
(`keras/keras_data_generation.py` 204-279, `keras/optimization_utils.py` 266-283) -/
def genKeras (c : Cfg K) (manip : Manip K) (upd : Update K) (order : ℕ → List ℕ) (noise : List (Img K)) :
    Option (St K × List (Batch K)) :=
  if c.sched ≠ .plateau then none
  else (start c.allImages (finalizeBatch (finalizeKeras c)) (batches c.batchSize noise)).bind fun s0 =>
    (runIters c.allImages true (finalizeBatch (finalizeKeras c)) manip upd order
      (List.range c.nIter) s0).bind fun s =>
        (s.images.mapM fun b => (finalizeBatch (finalizeKeras c) b).bind (splitKeras c.batchSize)).map
          fun ps => (s, ps.flatten)

end MCT.DataGen
