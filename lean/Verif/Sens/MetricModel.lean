import Verif.Quant.Lemmas
import Mathlib.Analysis.SpecialFunctions.Log.Basic
import Mathlib.Analysis.SpecialFunctions.Pow.Real

/-!
# Model of `core/common/mixed_precision/sensitivity_eval/metric_calculators.py` and
`core/common/similarity_analyzer.py`

Paths are relative to `/repo/model_compression_toolkit`.  Floats are real numbers.  A sample of the
output of a layer is the list of its rows along the axis the distance function works on (only the
Kullback-Leibler distance looks at the rows; the others use all elements in one list, and the order of
elements does not matter for their sums).  `none` is an exception.

Simplifications: a model maps every sample of a batch independently (the output for a batch is the list
of the outputs for its samples), a sample is one value (several network inputs are cut at the same
place), `np.asarray` of a list mixing numbers and vectors raises `ValueError` (numpy 1.24 and later).
-/

namespace MCT.Sens

noncomputable section

/-! ### Distances between two samples (similarity_analyzer.py) -/

/-- A sample of a layer output: its rows. -/
abbrev Ten := List (List ℝ)

/-- `np.mean` of a vector. -/
def mean (xs : List ℝ) : ℝ := xs.sum / xs.length

/-- The constant `EPS` (constants.py:25), also the default `norm_eps` and `eps`
(similarity_analyzer.py:90,163). -/
def eps : ℝ := 1 / 100000000

/-- `((float_flat - fxp_flat) ** 2).mean(axis=-1)` (similarity_analyzer.py:121), one sample. -/
def mseErr (x y : List ℝ) : ℝ := mean (List.zipWith (fun a b => (a - b) ^ 2) x y)

/-- `compute_mse` with `norm=True`, without weights (similarity_analyzer.py:87-126), one sample. -/
def nmse (x y : List ℝ) : ℝ := mseErr x y / (mean (x.map fun a => a ^ 2) + eps)

/-- `_similarity_tensor_norm` with `p = 2` (similarity_analyzer.py:42-53), one sample. -/
def norm2 (x : List ℝ) : ℝ := Real.sqrt (x.map fun a => |a| ^ 2).sum

/-- `compute_cs` from line 186 on (similarity_analyzer.py:186-197), one sample. -/
def cosine (x y : List ℝ) : ℝ :=
  max ((1 - (List.zipWith (fun a b => a * b) x y).sum / (norm2 x * norm2 y + eps)) / 2) 0

/-- One entry of `prob_distance` (similarity_analyzer.py:256-259). -/
def klTerm (p q : ℝ) : ℝ := if p ≠ 0 then p * Real.log (p / if q = 0 then eps else q) else 0

/-- `compute_kl_divergence` (similarity_analyzer.py:234-262), one sample. -/
def kl (x y : Ten) : ℝ := mean (List.zipWith (fun r s => (List.zipWith klTerm r s).sum) x y)

/-- The distance function of a point: `get_mp_node_distance_fn` (pytorch_implementation.py:417-446,
keras_implementation.py:420-448) gives the normalised squared error, the cosine (sigmoid and fully
connected layers), the Kullback-Leibler distance (softmax with an axis), or the function of the user,
which is taken to work sample by sample. -/
inductive DistFn where
  | nmse
  | cosine
  | kl
  | custom (f : Ten → Ten → ℝ)

/-- The value of a distance function on a batch: a vector over the samples, or a number. -/
inductive Dist where
  | num (v : ℝ)
  | vec (v : List ℝ)

/-- The value for one sample that the function computes when it works sample by sample. -/
def DistFn.sample : DistFn → Ten → Ten → ℝ
  | .nmse, x, y => Sens.nmse x.flatten y.flatten
  | .cosine, x, y => Sens.cosine x.flatten y.flatten
  | .kl, x, y => Sens.kl x y
  | .custom f, x, y => f x y

/-- All entries are zero. -/
def isZero (x : Ten) : Prop := ∀ a ∈ x.flatten, a = 0

open Classical in
/-- `fn(x, y, batch=True, axis=axis)` on a batch of pairs of samples: `compute_cs` returns the number
1.0 if all entries of both tensors are zero (similarity_analyzer.py:183-184). -/
def DistFn.batch (f : DistFn) (b : List (Ten × Ten)) : Dist :=
  match f with
  | .cosine => if ∀ p ∈ b, isZero p.1 ∧ isZero p.2 then .num 1 else .vec (b.map fun p => f.sample p.1 p.2)
  | _ => .vec (b.map fun p => f.sample p.1 p.2)

/-! ### The images (metric_calculators.py:318-349) -/

/-- The loop of `_get_images_batches`; `count` is `samples_count`. -/
def imagesFrom {α : Type} (num count : ℕ) : List (List α) → List (List α)
  | [] => []
  | b :: bs =>
    if num ≤ count then []
    else if num - count < b.length then
      (b.take (num - count)) :: imagesFrom num (count + (num - count)) bs
    else b :: imagesFrom num (count + b.length) bs

/-- `_get_images_batches` (metric_calculators.py:318-349). -/
def images {α : Type} (num : ℕ) (gen : List (List α)) : List (List α) := imagesFrom num 0 gen

/-! ### The distance matrices (metric_calculators.py:199-263) -/

/-- All values are numbers. -/
def nums : List Dist → Option (List ℝ)
  | [] => some []
  | .num v :: ds => (nums ds).map (v :: ·)
  | .vec _ :: _ => none

/-- All values are vectors of length `n`. -/
def vecs (n : ℕ) : List Dist → Option (List (List ℝ))
  | [] => some []
  | .num _ :: _ => none
  | .vec v :: ds => if v.length = n then (vecs n ds).map (v :: ·) else none

/-- `np.asarray(distance_v)` and the added dimension (metric_calculators.py:223,254-255): rows are
points.  A list of numbers becomes a matrix with one column. -/
def asMatrix (ds : List Dist) : Option (List (List ℝ)) :=
  match ds with
  | [] => some []
  | .num _ :: _ => (nums ds).map fun vs => vs.map fun v => [v]
  | .vec v :: _ => vecs v.length ds

/-- A point of the network: its distance function and its output in the float model and in the
quantized model for an image. -/
structure Point (α : Type) where
  fn : DistFn
  ref : α → Ten
  mp : α → Ten

/-- `_compute_points_distance` (metric_calculators.py:199-223) on one batch of images. -/
def pointsDistance {α : Type} (ps : List (Point α)) (b : List α) : Option (List (List ℝ)) :=
  asMatrix (ps.map fun p => p.fn.batch (b.map fun s => (p.ref s, p.mp s)))

/-- `np.concatenate(_, axis=1)` of matrices with `n` rows (metric_calculators.py:260-261); it raises for
an empty list. -/
def hconcat (n : ℕ) (ms : List (List (List ℝ))) : Option (List (List ℝ)) :=
  if ms = [] then none
  else some ((List.range n).map fun i => ms.flatMap fun m => m.getD i [])

/-- `_compute_distance` (metric_calculators.py:225-263) for one of the two sets of points. -/
def distances {α : Type} (ps : List (Point α)) (bs : List (List α)) : Option (List (List ℝ)) :=
  (bs.mapM (pointsDistance ps)).bind (hconcat ps.length)

/-! ### The value of the metric (metric_calculators.py:265-316) -/

/-- `MpDistanceWeighting` (mixed_precision_quantization_config.py:24-41) with the data each member
uses: the Hessian scores of the points, or the sigma of the exponential weights. -/
inductive Weighting where
  | avg
  | lastLayer
  | exp (sigma : ℝ)
  | hessian (scores : List ℝ)

/-- `np.average(xs, weights=ws)`: raises if the lengths differ or the weights sum to zero. -/
def average (xs ws : List ℝ) : Option ℝ :=
  open Classical in
  if xs.length = ws.length ∧ ws.sum ≠ 0 then some ((List.zipWith (fun x w => x * w) xs ws).sum / ws.sum)
  else none

open Classical in
/-- `_compute_ipts_distance_measure` (metric_calculators.py:286-316). -/
def iptsMeasure (w : Weighting) (m : List (List ℝ)) : Option ℝ :=
  match w with
  | .avg => some (mean m.flatten)
  | .lastLayer => m.getLast?.map mean
  | .hessian ws => average (m.map mean) ws
  | .exp sigma =>
    let ws := (m.map mean).map fun d => 1 - Real.exp (-d / sigma)
    if ∃ x ∈ ws, x ≠ 0 then average (m.map mean) ws else some 0

/-- `_compute_mp_distance_measure` (metric_calculators.py:265-284). -/
def mpMeasure (w : Weighting) (ips outs : List (List ℝ)) : Option ℝ :=
  if ips.flatten.length + outs.flatten.length = 0 then none
  else
    (if ips.flatten.length ≠ 0 then iptsMeasure w ips else some 0).map fun a =>
      a + if outs.flatten.length ≠ 0 then mean outs.flatten else 0

/-- `compute` of `DistanceMetricCalculator` (metric_calculators.py:122-134) with the batches of its
constructor (lines 111-112). -/
def metric {α : Type} (w : Weighting) (num : ℕ) (gen : List (List α)) (ips outs : List (Point α)) :
    Option ℝ :=
  (distances ips (images num gen)).bind fun a =>
    (distances outs (images num gen)).bind fun b => mpMeasure w a b

end

/-! ### The points (metric_calculators.py:88-108, 351-419) -/

/-- `np.round(np.linspace(0, n - 1, k)).astype(int)` (metric_calculators.py:416): one point is 0, more
points have the step `(n - 1) / (k - 1)`. -/
def spaced (n k : ℕ) : List ℕ :=
  (List.range k).map fun i : ℕ => (Quant.npRound (((n : ℚ) - 1) / ((k : ℚ) - 1) * (i : ℚ))).toNat

/-- `bound_num_interest_points` (metric_calculators.py:398-419); the factor is a rational number. -/
def boundPoints {β : Type} (l : List β) (factor : ℚ) : Option (List β) :=
  if factor < 1 then (spaced l.length ⌊factor * l.length⌋.toNat).mapM fun i => l[i]?
  else some l

/-- `get_mp_interest_points` (metric_calculators.py:351-379) of the nodes in topological order. -/
def interestPoints {β : Type} [DecidableEq β] (sorted : List β) (isIp : β → Bool) (outputs : List β)
    (factor : ℚ) : Option (List β) :=
  (boundPoints (sorted.filter isIp) factor).map fun l => l.filter fun n => !(outputs.contains n)

/-- `get_output_nodes_for_metric` (metric_calculators.py:381-396). -/
def outputPoints {β : Type} (outputs : List β) (quantized : β → Bool) : List β := outputs.filter quantized

/-- `list.index`: the first position of an element; raises if it is missing. -/
def indexIn {β : Type} [DecidableEq β] (l : List β) (n : β) : Option ℕ :=
  if n ∈ l then some (l.idxOf n) else none

/-- The indices of the tensors of the points among the outputs of the built model
(metric_calculators.py:103-108). -/
def tensorIndices {β : Type} [DecidableEq β] (sorted all points : List β) : Option (List ℕ) :=
  (all.mapM (indexIn sorted)).bind fun ai =>
    (points.mapM (indexIn sorted)).bind fun pi => pi.mapM (indexIn ai)

end MCT.Sens
