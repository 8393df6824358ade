import Verif.PerChan.Props

/-!
# Weight parameters by the Hessian-weighted error (HMSE)

The error is `_hmse_error_function_wrapper`
(`core/common/quantization/quantization_params_generation/error_functions.py:405-426`), which calls
`compute_mse` (`core/common/similarity_analyzer.py:87-126`); the searches are those of
`core/common/quantization/quantization_params_generation/qparams_search.py`.

The scores are given by an array `w` of the shape of the weights: the square root of the mean over the
samples of the scores (error_functions.py:486).
-/

namespace MCT.PerChan

open MCT.Quant MCT.Search

variable {K : Type} [Field K] [LinearOrder K] [IsStrictOrderedRing K] [FloorRing K]

/-- `((w * (float - fxp)) ** 2).mean()` of flat arrays (similarity_analyzer.py:118). -/
def weightedMean (w f q : List K) : K :=
  (List.zipWith (fun w d => (w * d) ^ 2) w (List.zipWith (fun a b => a - b) f q)).sum / (f.length : K)

/-- `(float ** 2).mean()` (similarity_analyzer.py:123). -/
def squareMean (f : List K) : K := (f.map fun a => a ^ 2).sum / (f.length : K)

/-- `_hmse_error_function_wrapper(float, fxp, axis, norm=False, scores)` (error_functions.py:405-426).
The call is `compute_mse(float, fxp, axis, norm, weights=…)`, by position, and the third and fourth
parameters of `compute_mse` are `norm` and `norm_eps` (similarity_analyzer.py:87-93).  So `-1`, the axis
of a search per channel, switches on normalisation with an epsilon of `False`, which is zero, and the
axis of the computation stays `None`: the arrays are flattened and the result is one number
(similarity_analyzer.py:78,118,123).  Per tensor the axis is `None` and nothing is normalised.
`w` are the flattened scores: `reshape_tensor_for_per_channel_search(scores, 0)` keeps the order of
the values.  A value that is NaN after quantization makes the error NaN, and so does `0 / 0`. -/
def hmseLoss (perChannel : Bool) (w f : List K) (q : List (Option K)) : Loss K :=
  match q.mapM id with
  | none => .nan
  | some q =>
    if perChannel then
      if squareMean f = 0 then .nan else .fin (weightedMean w f q / squareMean f)
    else .fin (weightedMean w f q)

/-- `quantize_tensor(rows, thresholds.reshape([-1, 1]), …)` flattened: the values of row `c` with
threshold `c` (qparams_search.py:87-88,208,318,328). -/
def quantRows (rows : List (List K)) (ts : List K) (n : ℕ) : List (Option K) :=
  (List.zipWith (fun xs t => xs.map fun v => quantizeTensor v t n true) rows ts).flatten

/-- `uniform_quantize_tensor(rows, …)` flattened (qparams_search.py:275-278,375-378,383-386). -/
def quantRowsUni (rows : List (List K)) (rs : List (K × K)) (n : ℕ) : List (Option K) :=
  (List.zipWith (fun xs r => xs.map fun v => uniformQuantize v r.1 r.2 n) rows rs).flatten

/-- `compute_mse` stops if the flattened scores and values have different lengths
(similarity_analyzer.py:115-117). -/
def checkScores (w x : Tensor K) : Option Unit :=
  if (ravel w).length = (ravel x).length then some () else none

/-- The losses of the thresholds of the power-of-two search, per channel (qparams_search.py:85-90). -/
def hmsePotLoss (w : Tensor K) (rows : List (List K)) (ts : List K) (n i : ℕ) : Loss K :=
  hmseLoss true (ravel w) rows.flatten (quantRows rows (ts.map fun T => T / 2 ^ i) n)

/-- `qparams_selection_tensor_search` per channel with the HMSE error along a given axis
(qparams_search.py:63-101; the axis of a kernel is always given).  The errors are single numbers, so
`err_mat` is a vector, `np.argmin` one index and the same power of two divides all the thresholds.
Without iterations there is nothing to stack. -/
def hmsePot (w x : Tensor K) (ax n nIter : ℕ) (minThr : K) : Option (Tensor K) :=
  (checkScores w x).bind fun _ => (toRows x ax).bind fun rows =>
  (rows.mapM fun xs => tensorMaxOf xs n false).bind fun ms =>
    let ts := ms.map fun m => 2 * maxPowerOfTwo m minThr
    match nIter with
    | 0 => none
    | k + 1 =>
      let i := (argBest (hmsePotLoss w rows ts n) 0 ((List.range k).map fun j => j + 1)).param
      some (ofChannels x.shape.length ax (ts.map fun T => max (T / 2 ^ i) minThr) 0)

/-- Per tensor (qparams_search.py:91-94,98); the arguments of the error are swapped, which the squares do not
see. -/
def hmsePotTensor (w x : Tensor K) (n nIter : ℕ) (minThr : K) : Option K :=
  (checkScores w x).bind fun _ =>
    (potSearch (fun q f _ => weightedMean (ravel w) (q.map fun v => v.getD 0) f) (ravel x) n nIter minThr
      true).map Prod.fst

/-- The candidates of `search_fixed_range_intervals` per channel (qparams_search.py:212,323-327): candidate
`i` takes the `i`-th of the evenly spaced thresholds in every channel. -/
def vecLinspace (s : K × K) (k : ℕ) (v : List K) : List K × List (List K) :=
  (v.map fun t => t * s.1, (List.range k).map fun i =>
    v.map fun t => t * s.1 + ((i + 1 : ℕ) : K) * ((t * s.2 - t * s.1) / (k : K)))

/-- `qparams_symmetric_iterative_minimization` per channel with the HMSE error
(qparams_search.py:158-236): the loss has the shape `(1, 1)`, so the comparisons have one outcome, which
selects the thresholds of all the channels: the search over one "channel" whose parameter is the vector of
thresholds. -/
def hmseSymIter (w : List K) (rows : List (List K)) (x0 : List K) (n nIntervals nIter : ℕ)
    (alpha beta : K) (f : K × K) (decFreq : ℕ) (bottom upper tol : K) :
    IterState 1 (List K) (K × K) K :=
  let loss : Fin 1 → List K → Loss K := fun _ ts => hmseLoss true w rows.flatten (quantRows rows ts n)
  iterRounds (fun s v => vecLinspace s (nIntervals - 1) v) foldBest loss
    (symNext decFreq f bottom upper) tol nIter 0 (iterInit loss (fun _ => x0) (alpha, beta))

/-- `qparams_symmetric_selection_tensor_search` per channel with the HMSE error (qparams_search.py:428-451). -/
def hmseSym (w x : Tensor K) (ax n nIntervals nIter : ℕ) (alpha beta : K) (f : K × K) (decFreq : ℕ)
    (bottom upper tol minThr : K) : Option (Tensor K) :=
  (checkScores w x).bind fun _ => (toRows x ax).bind fun rows =>
  (rows.mapM fun xs => tensorMaxOf xs n false).map fun ms =>
    ofChannels x.shape.length ax
      (((hmseSymIter (ravel w) rows (ms.map fun m => max minThr m) n nIntervals nIter alpha beta f decFreq
        bottom upper tol).best 0).param.map fun t => max minThr t) 0

/-- The candidates of `search_dynamic_range` per channel (qparams_search.py:370-388). -/
def vecScale (sc0 : K × K) (scs : List (K × K)) (v : List (K × K)) :
    List (K × K) × List (List (K × K)) :=
  (v.map fun p => (p.1 * sc0.1, p.2 * sc0.2), scs.map fun s => v.map fun p => (p.1 * s.1, p.2 * s.2))

/-- `iterative_uniform_dynamic_range_search` per channel with the HMSE error (qparams_search.py:239-304). -/
def hmseUniIter (w : List K) (rows : List (List K)) (x0 : List (K × K)) (n : ℕ) (sc0 : K × K)
    (scs : List (K × K)) (nIter : ℕ) (tol : K) : IterState 1 (List (K × K)) Unit K :=
  let loss : Fin 1 → List (K × K) → Loss K := fun _ rs =>
    hmseLoss true w rows.flatten (quantRowsUni rows rs n)
  iterRounds (fun _ v => vecScale sc0 scs v) foldBest loss (fun _ s => s) tol nIter 0
    (iterInit loss (fun _ => x0) ())

/-- `[tensor_min, tensor_max]` of a channel (qparams_search.py:497-498,510). -/
def minMaxOf (xs : List K) (n : ℕ) : Option (K × K) :=
  (npMin xs).bind fun lo => (tensorMaxOf xs n true).map fun hi => (lo, hi)

/-- The adjustment of degenerate ranges (uniform_selection.py:99-103). -/
def adjustRange (r : K × K) : K × K :=
  (if r.2 = r.1 ∧ r.1 > 0 then 0 else r.1, if r.2 = r.1 ∧ r.2 < 0 then 0 else r.2)

/-- `uniform_selection_tensor` per channel with the HMSE error (uniform_selection.py:84-105,
qparams_search.py:495-519). -/
def hmseUni (w x : Tensor K) (ax n : ℕ) (sc0 : K × K) (scs : List (K × K)) (nIter : ℕ) (tol : K) :
    Option (Tensor (K × K)) :=
  (checkScores w x).bind fun _ => (toRows x ax).bind fun rows =>
  (rows.mapM fun xs => minMaxOf xs n).map fun mm =>
    ofChannels x.shape.length ax
      (((hmseUniIter (ravel w) rows mm n sc0 scs nIter tol).best 0).param.map adjustRange) 0

end MCT.PerChan
