import Verif.Quant.Model
import Mathlib.Algebra.BigOperators.Fin
import Mathlib.Analysis.SpecialFunctions.Sqrt

/-!
# Model of the quantization-parameter searches
(`core/common/quantization/quantization_params_generation`)

Tensors are lists of channels, channels are lists of values.  Error functions are parameters of the
code and of the model: arbitrary functions.  Losses that may be infinite (`np.inf` is returned by the
KL error functions, error_functions.py:117-126) are modelled by `Loss`.
-/

namespace MCT.Search

open MCT.Quant

variable {K : Type*} [Field K] [LinearOrder K] [FloorRing K]

/-- `np.argmin` together with `min`: first index attaining the minimum; an empty array raises.
Used at qparams_search.py:96-101,155,347,395. -/
def argminV {α : Type*} [LE α] [DecidableLE α] : List α → Option (ℕ × α)
  | [] => none
  | x :: xs =>
    match argminV xs with
    | none => some (0, x)
    | some (j, y) => if x ≤ y then some (0, x) else some (j + 1, y)

/-- `np.min` of an array; an empty array raises (quantizers_helpers.py:222,227,247). -/
def npMin : List K → Option K
  | [] => none
  | x :: xs => some (xs.foldl min x)

/-- `np.max` of an array; an empty array raises (quantizers_helpers.py:223,228). -/
def npMax : List K → Option K
  | [] => none
  | x :: xs => some (xs.foldl max x)

/-- `get_tensor_max` on the data of one channel (quantizers_helpers.py:193-229). -/
def tensorMaxOf (xs : List K) (n : ℕ) (isUniform : Bool) : Option K :=
  match npMin xs, npMax xs with
  | some lo, some hi => tensorMax lo hi n isUniform
  | _, _ => none

/-- `qparams_selection_tensor_search`, `per_channel=False`
(qparams_search.py:33-101): returned threshold and its error.
The error function is called as `error_function(qt, tensor_data, threshold)` (line 92). -/
def potSearch (err : List (Option K) → List K → K → K) (xs : List K) (n nIter : ℕ) (minThr : K)
    (signed : Bool) : Option (K × K) :=
  match tensorMaxOf xs n false with
  | none => none
  | some m =>
    let T := 2 * maxPowerOfTwo m minThr
    let errs := (List.range nIter).map fun i =>
      err (xs.map fun x => quantizeTensor x (T / 2 ^ i) n signed) xs (T / 2 ^ i)
    match argminV errs with
    | none => none
    | some (i, e) => some (max (T / 2 ^ i) minThr, e)

/-- One channel of `qparams_selection_tensor_search`, `per_channel=True`
(qparams_search.py:84-89,96-98).  Here the error function is called as
`error_function(tensor_data_r, qt, threshold_hat)` (lines 88, 757), i.e. with the float data first.
The code is vectorised over the channels: an error function that looks at one channel at a time. -/
def potSearchChannel (err : List K → List (Option K) → K → K) (xs : List K) (n nIter : ℕ)
    (minThr : K) (signed : Bool) : Option (K × K) :=
  match tensorMaxOf xs n false with
  | none => none
  | some m =>
    let T := 2 * maxPowerOfTwo m minThr
    let errs := (List.range nIter).map fun i =>
      err xs (xs.map fun x => quantizeTensor x (T / 2 ^ i) n signed) (T / 2 ^ i)
    match argminV errs with
    | none => none
    | some (i, e) => some (max (T / 2 ^ i) minThr, e)

/-- All channels of one axis: the thresholds of the channels and the mean of the minimal errors
(qparams_search.py:66-99).  `chs` is the tensor reshaped to one row per channel. -/
def potSearchPerChannel (err : List K → List (Option K) → K → K) (chs : List (List K)) (n nIter : ℕ)
    (minThr : K) (signed : Bool) : Option (List K × K) :=
  match chs.mapM fun xs => potSearchChannel err xs n nIter minThr signed with
  | none => none
  | some rs => some (rs.map Prod.fst, (rs.map Prod.snd).sum / rs.length)

/-- Search over all the axes when `channel_axis is None`
(qparams_search.py:63-66,100-101): `axes` lists the tensor reshaped along each axis. -/
def potSearchAxes (err : List K → List (Option K) → K → K) (axes : List (List (List K)))
    (n nIter : ℕ) (minThr : K) (signed : Bool) : Option (List K × ℕ) :=
  match axes.mapM fun chs => potSearchPerChannel err chs n nIter minThr signed with
  | none => none
  | some rs =>
    match argminV (rs.map Prod.snd) with
    | none => none
    | some (i, _) => (rs[i]?).map fun r => (r.1, i)

/-! ### No-clipping selection -/

/-- `power_of_two_selection_tensor`, NOCLIPPING, one channel
(power_of_two_selection.py:65-80). -/
def potNoClip (xs : List K) (n : ℕ) (minThr : K) : Option K :=
  (tensorMaxOf xs n false).map fun m => maxPowerOfTwo m minThr

/-- `symmetric_selection_tensor`, NOCLIPPING, one channel
(symmetric_selection.py:67-82,189-206); both branches of `get_init_threshold` compute the maximum. -/
def symNoClip (xs : List K) (n : ℕ) (minThr : K) : Option K :=
  (tensorMaxOf xs n false).map fun m => max minThr m

/-- `uniform_selection_tensor`, NOCLIPPING, one channel
(uniform_selection.py:66-82) with the adjustment of degenerate ranges (93-103).
`perTensor` selects the scalar branch. -/
def uniNoClip (xs : List K) (n : ℕ) (perTensor : Bool) : Option (K × K) :=
  match npMin xs, tensorMaxOf xs n true with
  | some lo, some hi =>
    if perTensor then
      let lo' := if lo > 0 then 0 else lo
      let hi' := if hi < 0 then 0 else hi
      some (lo', hi')
    else
      let lo' := if hi = lo ∧ lo > 0 then 0 else lo
      let hi' := if hi = lo ∧ hi < 0 then 0 else hi
      some (lo', hi')
  | _, _ => none

/-- `np.max(np.abs(bins)[1:][counts > 0])`
(power_of_two_selection.py:132, symmetric_selection.py:130). -/
def histAbsMax (bins counts : List K) : Option K :=
  npMax ((((bins.map abs).tail).zip counts).filterMap fun p => if 0 < p.2 then some p.1 else none)

/-- `power_of_two_selection_histogram`, NOCLIPPING (power_of_two_selection.py:131-135). -/
def potNoClipHist (bins counts : List K) (minThr : K) : Option K :=
  (histAbsMax bins counts).map fun m => maxPowerOfTwo m minThr

/-- `symmetric_selection_histogram`, NOCLIPPING (symmetric_selection.py:130-134). -/
def symNoClipHist (bins counts : List K) (minThr : K) : Option K :=
  (histAbsMax bins counts).map fun m => max minThr m

/-- `uniform_selection_histogram`, NOCLIPPING (uniform_selection.py:138-145). -/
def uniNoClipHist (bins counts : List K) : Option (K × K) :=
  let sel (l : List K) := (l.zip counts).filterMap fun p => if 0 < p.2 then some p.1 else none
  match npMin (sel bins.dropLast), npMax (sel bins.tail) with
  | some lo, some hi => some (lo, hi)
  | _, _ => none

/-- `power_of_two_no_clipping_selection_min_max` (power_of_two_selection.py:149-178). -/
def potNoClipMinMax (minV maxV minThr : K) : Option K := potNoClipHist [minV, maxV] [1] minThr

/-- `symmetric_no_clipping_selection_min_max` (symmetric_selection.py:157-186). -/
def symNoClipMinMax (minV maxV minThr : K) : Option K := symNoClipHist [minV, maxV] [1] minThr

/-- `uniform_no_clipping_selection_min_max` (uniform_selection.py:159-187). -/
def uniNoClipMinMax (minV maxV : K) : Option (K × K) := uniNoClipHist [minV, maxV] [1]

/-- `qparams_selection_histogram_search`, constrained (qparams_search.py:133-155).
`err` stands for the error computed from the quantized bins (none = NaN) and the threshold. -/
def potHistSearch (err : List (Option K) → K → K) (bins : List K) (n nIter : ℕ) (minThr : K)
    (isSigned : Option Bool) : Option (K × Bool) :=
  let signed := match isSigned with
    | none => bins.any fun b => decide (b < 0)
    | some s => s
  match npMax (bins.map abs) with
  | none => none
  | some m =>
    let T := 2 * maxPowerOfTwo m minThr
    let errs := (List.range nIter).map fun i =>
      err (bins.map fun x => quantizeTensor x (T / 2 ^ i) n signed) (T / 2 ^ i)
    match argminV errs with
    | none => none
    | some (i, _) => some (max (T / 2 ^ i) minThr, signed)

/-! ### Iterative searches -/

/-- A numpy float that may be infinite or NaN (the losses of the searches). -/
inductive Loss (K : Type*) where
  | fin (k : K)
  | inf
  | nan
  deriving DecidableEq, Repr

/-- `a < b` on numpy floats (qparams_search.py:219,294,339,388). -/
def Loss.lt : Loss K → Loss K → Bool
  | .fin a, .fin b => decide (a < b)
  | .fin _, .inf => true
  | _, _ => false

/-- `a * b` with `b` a boolean: `inf * False` is NaN (qparams_search.py:220-221). -/
def Loss.mulB : Loss K → Bool → Loss K
  | .fin a, b => .fin (a * b2k b)
  | .inf, true => .inf
  | .inf, false => .nan
  | .nan, _ => .nan

/-- `a + b` on the (non-negative) losses. -/
def Loss.add : Loss K → Loss K → Loss K
  | .fin a, .fin b => .fin (a + b)
  | .nan, _ => .nan
  | _, .nan => .nan
  | _, _ => .inf

/-- `a * imp + b * np.logical_not(imp)` on losses (qparams_search.py:221,297,342,391). -/
def Loss.blend (imp : Bool) (a b : Loss K) : Loss K := (a.mulB imp).add (b.mulB (!imp))

/-- The dictionary `{"param": …, "loss": …}` of the searches. -/
structure Best (P K : Type*) where
  param : P
  loss : Loss K

/-- Update of the running best (qparams_search.py:219-221,294-297,339-342,388-391).
Parameters are finite, so their blending is a selection. -/
def Best.update {P : Type*} (b : Best P K) (p : P) (l : Loss K) : Best P K :=
  let imp := l.lt b.loss
  { param := if imp then p else b.param, loss := Loss.blend imp l b.loss }

/-- The vectorised inner searches, one channel: first candidate, then strict improvements
(qparams_search.py:325-342 and 370-391). -/
def foldBest {P : Type*} (loss : P → Loss K) (c0 : P) (cs : List P) : Best P K :=
  cs.foldl (fun b p => b.update p (loss p)) ⟨c0, loss c0⟩

/-- Order used by `np.argmin`: NaN counts as the smallest value. -/
def Loss.argLe : Loss K → Loss K → Bool
  | .nan, _ => true
  | _, .nan => false
  | .fin a, .fin b => decide (a ≤ b)
  | .fin _, .inf => true
  | .inf, .inf => true
  | .inf, .fin _ => false

/-- The per-tensor inner searches: `intervals[np.argmin(losses)]` and `np.min(losses)`
(qparams_search.py:344-348 and 393-396). -/
def argBest {P : Type*} (loss : P → Loss K) : P → List P → Best P K
  | c0, [] => ⟨c0, loss c0⟩
  | c0, c :: cs =>
    let b := argBest loss c cs
    if (loss c0).argLe b.loss then ⟨c0, loss c0⟩ else b

/-- State of an iterative search over `m` channels (`m = 1` for a per-tensor search).
`seen` is a ghost field: the parameters whose loss was computed, per channel. -/
structure IterState (m : ℕ) (P S K : Type*) where
  curr : Fin m → P
  best : Fin m → Best P K
  sched : S
  seen : Fin m → List P

/-- The finite value of a loss, if any. -/
def Loss.toOption : Loss K → Option K
  | .fin k => some k
  | _ => none

/-- Early stop: `0 < np.mean(prev_best_loss - curr_loss) < tolerance`
(qparams_search.py:223-226,299-302).  If one of the differences is infinite or NaN so is the mean and
the comparison is false. -/
def stopNow {m : ℕ} (tol : K) (prev curr : Fin m → Loss K) : Bool :=
  if ∀ c, (prev c).toOption.isSome ∧ (curr c).toOption.isSome then
    let avg := (∑ c, (((prev c).toOption.getD 0) - ((curr c).toOption.getD 0))) / (m : K)
    decide (0 < avg) && decide (avg < tol)
  else false

/-- The main loop of `qparams_symmetric_iterative_minimization` (qparams_search.py:211-236) and of
`iterative_uniform_dynamic_range_search` (qparams_search.py:284-304).
`cands s p` are the candidates around the current parameter (first one and the others),
`inner` the inner search, `next n s` the schedule of the range scale.  First argument: rounds left,
second: the loop variable `n`. -/
def iterRounds {m : ℕ} {P S : Type*} (cands : S → P → P × List P)
    (inner : (P → Loss K) → P → List P → Best P K) (loss : Fin m → P → Loss K)
    (next : ℕ → S → S) (tol : K) : ℕ → ℕ → IterState m P S K → IterState m P S K
  | 0, _, st => st
  | k + 1, n, st =>
    let res : Fin m → Best P K := fun c =>
      inner (loss c) (cands st.sched (st.curr c)).1 (cands st.sched (st.curr c)).2
    let st' : IterState m P S K :=
      { curr := fun c => (res c).param
        best := fun c => (st.best c).update (res c).param (res c).loss
        sched := next n st.sched
        seen := fun c => st.seen c ++
          (cands st.sched (st.curr c)).1 :: (cands st.sched (st.curr c)).2 }
    if stopNow tol (fun c => (st.best c).loss) (fun c => (res c).loss) then st'
    else iterRounds cands inner loss next tol k (n + 1) st'

/-- Initialisation of the searches (qparams_search.py:201-209,270-282). -/
def iterInit {m : ℕ} {P S : Type*} (loss : Fin m → P → Loss K) (x0 : Fin m → P) (s0 : S) :
    IterState m P S K :=
  { curr := x0, best := fun c => ⟨x0 c, loss c (x0 c)⟩, sched := s0, seen := fun c => [x0 c] }

/-- `np.linspace(start, stop, num)` for `num = k + 1`, split into first element and the others
(qparams_search.py:323,345). -/
def linspace (start stop : K) (k : ℕ) : K × List K :=
  let step := (stop - start) / (k : K)
  (start, (List.range k).map fun i => start + ((i + 1 : ℕ) : K) * step)

/-- The schedule of the symmetric search (qparams_search.py:228-234): every `decFreq` rounds the
scale factors are shrunk and kept apart. -/
def symNext (decFreq : ℕ) (f : K × K) (bottom upper : K) (n : ℕ) (s : K × K) : K × K :=
  if n % decFreq = 0 then (min (s.1 * f.1) bottom, max (s.2 * f.2) upper) else s

/-- `qparams_symmetric_iterative_minimization` (qparams_search.py:158-236) on `m` channels.
`perChannel = false` uses the arg-min inner search (then `m = 1`). -/
def symIterMin {m : ℕ} (perChannel : Bool) (lossFn : List K → List (Option K) → K → Loss K)
    (x : Fin m → List K) (x0 : Fin m → K) (n : ℕ) (signed : Bool) (nIntervals nIter : ℕ)
    (alpha beta : K) (f : K × K) (decFreq : ℕ) (bottom upper tol : K) : IterState m K (K × K) K :=
  let loss : Fin m → K → Loss K := fun c t =>
    lossFn (x c) ((x c).map fun v => quantizeTensor v t n signed) t
  iterRounds (fun s t => linspace (t * s.1) (t * s.2) (nIntervals - 1))
    (if perChannel then foldBest else argBest) loss (symNext decFreq f bottom upper) tol nIter 0
    (iterInit loss x0 (alpha, beta))

/-- Candidate ranges of the uniform search: base range times every scaler
(qparams_search.py:370-373,393).  `sc0 :: scs` are the scalers. -/
def uniCands (sc0 : K × K) (scs : List (K × K)) (p : K × K) : (K × K) × List (K × K) :=
  ((p.1 * sc0.1, p.2 * sc0.2), scs.map fun s => (p.1 * s.1, p.2 * s.2))

/-- `iterative_uniform_dynamic_range_search` (qparams_search.py:239-304) on `m` channels. -/
def uniIterMin {m : ℕ} (perChannel : Bool) (lossFn : List K → List (Option K) → K × K → Loss K)
    (x : Fin m → List K) (x0 : Fin m → K × K) (n : ℕ) (sc0 : K × K) (scs : List (K × K))
    (nIter : ℕ) (tol : K) : IterState m (K × K) Unit K :=
  let loss : Fin m → K × K → Loss K := fun c r =>
    lossFn (x c) ((x c).map fun v => uniformQuantize v r.1 r.2 n) r
  iterRounds (fun _ p => uniCands sc0 scs p)
    (if perChannel then foldBest else argBest) loss (fun _ s => s) tol nIter 0
    (iterInit loss x0 ())

/-- Per-tensor `qparams_symmetric_selection_tensor_search` (qparams_search.py:452-462): the search
result floored at `min_threshold`. -/
def symSearch (lossFn : List K → List (Option K) → K → Loss K) (xs : List K) (n : ℕ) (signed : Bool)
    (nIntervals nIter : ℕ) (alpha beta : K) (f : K × K) (decFreq : ℕ) (bottom upper tol minThr : K) :
    Option K :=
  (tensorMaxOf xs n false).map fun tm =>
    let r := symIterMin (m := 1) false lossFn (fun _ => xs) (fun _ => max minThr tm) n signed
      nIntervals nIter alpha beta f decFreq bottom upper tol
    max minThr (r.best 0).param

/-! ### Look-up tables -/

/-- `kmeans_assign_clusters` for one query value (quantizers_helpers.py:127-143). -/
def assignCluster (lut : List K) (q : K) : Option ℕ :=
  (argminV (lut.map fun c => |q - c|)).map Prod.fst

/-- `lut_kmeans_quantizer` for one element (lut_kmeans_quantizer.py:24-57 with
`get_quantized_tensor`, quantizers_helpers.py:176-190); `lutBits` is `LUT_VALUES_BITWIDTH`. -/
def lutQuantize (lut : List K) (threshold : K) (lutBits : ℕ) (eps x : K) : Option K :=
  let t := intQuantWithThreshold x threshold lutBits true eps
  match assignCluster lut t with
  | none => none
  | some i => (lut[i]?).map fun c => ((npRound c : K) / 2 ^ (lutBits - 1)) * threshold

/-- Number of clusters requested from k-means (lut_kmeans_params.py:69-74):
`u` distinct data points. -/
def numClusters (u n : ℕ) : ℕ := if u < 2 ^ n then u else 2 ^ n

/-- The look-up table built from the k-means centres (lut_kmeans_params.py:88-98).
`none`: no centres (empty tensor). -/
def buildLut (centres : List K) (nDataPoints n : ℕ) : Option (List K) :=
  let cc : List K := centres.map fun c => (npRound c : K)
  let cc := if nDataPoints < 2 ^ n ∧ ∀ c ∈ cc, c ≠ 0 then (0 : K) :: cc else cc
  match argminV (cc.map fun c => |c - 0|) with
  | none => none
  | some (i, _) => some (cc.set i 0)

/-! ### Outlier filter and signedness -/

/-- `z_score_filter` (outlier_filter.py:20-48): the new counts.
Division by `sigma = 0` gives NaN for `bin = mu` (comparison false) and `inf` otherwise (true);
a histogram without mass gives NaN everywhere (all comparisons false). -/
noncomputable def zScoreFilter (z : ℝ) (bins counts : List ℝ) : List ℝ :=
  let h := bins.dropLast.zip counts
  let tot := counts.sum
  if tot = 0 then counts
  else
    let mu := (h.map fun p => p.1 * p.2).sum / tot
    let sigma := Real.sqrt ((h.map fun p => (p.1 - mu) ^ 2 * p.2).sum / tot)
    h.map fun p =>
      if sigma = 0 then (if p.1 ≠ mu then 0 else p.2)
      else if |p.1 - mu| / sigma > z then 0 else p.2

/-- The three values of `Signedness` (schema). -/
inductive Signedness where
  | auto
  | signed
  | unsigned
  deriving DecidableEq, Repr

/-- `determine_signedness` (qparams_activations_computation.py:56-83). -/
def determineSignedness (cfg : Signedness) (bounded : Bool) (minV : K) (bins counts : List K) :
    Bool :=
  if cfg = .signed ∨ cfg = .unsigned then decide (cfg = .signed)
  else if bounded then decide (minV < 0)
  else ((bins.dropLast.zip counts).filterMap fun p =>
    if 0 < p.2 then some p.1 else none).any fun b => decide (b < 0)

end MCT.Search
