import Verif.Search.Model

/-!
# Model of the statistics collectors (`core/common/collectors`)

A batch seen by the per-channel collectors is the tensor reshaped to one row per channel
(`np.reshape(np.transpose(x, …), [n, -1])`), rows being non-empty: `Fin n → K × List K`
(first value, other values).  A batch seen by a histogram collector is the list of its values.
-/

namespace MCT.Collect

open MCT.Quant MCT.Search

variable {K : Type*} [Field K] [LinearOrder K] [FloorRing K]

/-- One batch, reshaped to `n` non-empty rows
(min_max_per_channel_collector.py:131-134, mean_collector.py:89-92). -/
abbrev Batch (n : ℕ) (K : Type*) := Fin n → K × List K

/-- The values of a row. -/
def row {n : ℕ} (b : Batch n K) (c : Fin n) : List K := (b c).1 :: (b c).2

/-! ### Min/max per channel -/

/-- `MinMaxPerChannelCollector` (min_max_per_channel_collector.py:22-42).
`state c = (max, min)` as in `np.stack([x_max, x_min])`. -/
structure MinMax (n : ℕ) (K : Type*) where
  state : Option (Fin n → K × K)
  initMin : Option K
  initMax : Option K
  ignoreInit : Bool

/-- `__init__` (min_max_per_channel_collector.py:27-42). -/
def MinMax.init {n : ℕ} (initMin initMax : Option K) : MinMax n K :=
  { state := none, initMin := initMin, initMax := initMax, ignoreInit := false }

/-- `update` (min_max_per_channel_collector.py:122-143). -/
def MinMax.update {n : ℕ} (s : MinMax n K) (b : Batch n K) : MinMax n K :=
  let xmax : Fin n → K := fun c => (b c).2.foldl max (b c).1
  let xmin : Fin n → K := fun c => (b c).2.foldl min (b c).1
  match s.state with
  | none => { s with state := some fun c => (xmax c, xmin c) }
  | some st => { s with state := some fun c => (max (xmax c) (st c).1, min (xmin c) (st c).2) }

/-- `scale` by a scalar (min_max_per_channel_collector.py:44-65).  `none`: scaling before any update
raises (`None * factor`). -/
def MinMax.scale {n : ℕ} (s : MinMax n K) (f : K) : Option (MinMax n K) :=
  s.state.map fun st =>
    { s with state := some fun c => ((st c).1 * f, (st c).2 * f)
             initMax := s.initMax.map (· * f), initMin := s.initMin.map (· * f) }

/-- `shift` by a scalar (min_max_per_channel_collector.py:67-87). -/
def MinMax.shift {n : ℕ} (s : MinMax n K) (f : K) : Option (MinMax n K) :=
  s.state.map fun st =>
    { s with state := some fun c => ((st c).1 + f, (st c).2 + f)
             initMax := s.initMax.map (· + f), initMin := s.initMin.map (· + f) }

/-- `scale` by a vector with more than one entry (min_max_per_channel_collector.py:55-60). -/
def MinMax.scaleVec {n : ℕ} (s : MinMax n K) (f : Fin n → K) : Option (MinMax n K) :=
  s.state.map fun st =>
    { s with state := some fun c => ((st c).1 * f c, (st c).2 * f c), ignoreInit := true }

/-- `min` property (min_max_per_channel_collector.py:89-96). -/
def MinMax.min {n : ℕ} (s : MinMax n K) : Option K :=
  s.state.bind fun st => npMin ((List.finRange n).map fun c => (st c).2)

/-- `max` property (min_max_per_channel_collector.py:98-105). -/
def MinMax.max {n : ℕ} (s : MinMax n K) : Option K :=
  s.state.bind fun st => npMax ((List.finRange n).map fun c => (st c).1)

/-- `StatsCollector.get_min_max_values` (statistics_collector.py:104-123); initial values are finite
numbers or absent (`is_number`). -/
def MinMax.values {n : ℕ} (s : MinMax n K) : Option (K × K) :=
  match s.min, s.max with
  | some lo, some hi =>
    if s.ignoreInit then some (lo, hi)
    else some (s.initMin.getD lo, s.initMax.getD hi)
  | _, _ => none

/-! ### Mean -/

/-- `MeanCollector` (mean_collector.py:23-42). -/
structure Mean (n : ℕ) (K : Type*) where
  currentMean : Fin n → K
  currentSum : Fin n → K
  i : ℕ

/-- `__init__` (mean_collector.py:29-42). -/
def Mean.init {n : ℕ} : Mean n K := ⟨fun _ => 0, fun _ => 0, 0⟩

/-- Mean of the values of a non-empty row (mean_collector.py:93). -/
def rowMean {n : ℕ} (b : Batch n K) (c : Fin n) : K := (row b c).sum / ((row b c).length : K)

/-- `update` (mean_collector.py:79-95). -/
def Mean.update {n : ℕ} (s : Mean n K) (b : Batch n K) : Mean n K :=
  let i := s.i + 1
  let sum : Fin n → K := fun c => s.currentSum c + rowMean b c
  { i := i, currentSum := sum, currentMean := fun c => sum c / (i : K) }

/-- `scale` (mean_collector.py:44-55): a factor per channel (a scalar is a constant vector). -/
def Mean.scale {n : ℕ} (s : Mean n K) (f : Fin n → K) : Mean n K :=
  { s with currentMean := fun c => s.currentMean c * f c }

/-- `shift` (mean_collector.py:57-68). -/
def Mean.shift {n : ℕ} (s : Mean n K) (f : Fin n → K) : Mean n K :=
  { s with currentMean := fun c => s.currentMean c + f c }

/-! ### Histograms -/

/-- `np.linspace(lo, hi, k+1)`: all `k + 1` points (histogram_collector.py:73). -/
def linspaceL (lo hi : K) (k : ℕ) : List K :=
  (List.range (k + 1)).map fun (i : ℕ) => lo + (i : K) * ((hi - lo) / (k : K))

/-- Is `x` in bin `i` of `k` bins with edge function `e`; the last bin is closed. -/
def inBin (e : ℕ → K) (k i : ℕ) (x : K) : Bool :=
  decide (e i ≤ x) && (decide (x < e (i + 1)) || (decide (i + 1 = k) && decide (x ≤ e (i + 1))))

/-- The outer edges numpy uses: min and max of the data, widened by 1/2 when they coincide. -/
def outerEdges (lo hi : K) : K × K := if lo = hi then (lo - 1 / 2, hi + 1 / 2) else (lo, hi)

/-- `np.histogram(x, bins=k)` (histogram_collector.py:158): counts and edges. -/
def npHistogram (xs : List K) (k : ℕ) : Option (List K × List K) :=
  match npMin xs, npMax xs with
  | some lo, some hi =>
    let o := outerEdges lo hi
    let e : ℕ → K := fun i => o.1 + (i : K) * ((o.2 - o.1) / (k : K))
    some ((List.range k).map fun i => ((xs.filter (inBin e k i)).length : K),
      linspaceL o.1 o.2 k)
  | _, _ => none

/-- `np.cumsum` with a leading zero (histogram_collector.py:34). -/
def cumsum0 (acc : K) : List K → List K
  | [] => [acc]
  | c :: cs => acc :: cumsum0 (acc + c) cs

/-- `np.interp(x, xp, fp)` on the list of points `(xp, fp)` (histogram_collector.py:37):
constant outside, linear between neighbouring points. -/
def interp (x : K) : List (K × K) → K
  | [] => 0
  | [p] => p.2
  | p :: q :: rest =>
    if x ≤ p.1 then p.2
    else if x ≤ q.1 then p.2 + (x - p.1) / (q.1 - p.1) * (q.2 - p.2)
    else interp x (q :: rest)

/-- `np.diff` (histogram_collector.py:39). -/
def npDiff : List K → List K
  | [] => []
  | [_] => []
  | a :: b :: rest => (b - a) :: npDiff (b :: rest)

/-- `interpolate_histogram` (histogram_collector.py:21-41). -/
def interpolateHistogram (currentBins bins counts : List K) : List K :=
  npDiff (currentBins.map fun x => interp x (bins.zip (cumsum0 0 counts)))

/-- Pointwise addition of two arrays (histogram_collector.py:80). -/
def addL (a b : List K) : List K := List.zipWith (· + ·) a b

/-- `HistogramCollector._merge_histograms` (histogram_collector.py:61-86): merged bins and counts;
`none` when nothing was collected. -/
def mergeHistograms (nBins : ℕ) (hs : List (List K × List K)) : Option (List K × List K) :=
  match hs with
  | [] => none
  | h :: rest =>
    let stack := (h :: rest).flatMap Prod.snd
    match npMin stack, npMax stack with
    | some lo, some hi =>
      let mb := linspaceL lo hi nBins
      let counts := rest.foldl (fun acc g => addL acc (interpolateHistogram mb g.2 g.1))
        (interpolateHistogram mb h.2 h.1)
      some (mb, counts)
    | _, _ => none

/-- `HistogramCollector` (histogram_collector.py:44-60): the fields `_bins`, `_counts` are set
together, so they are one optional pair `(bins, counts)`. -/
structure Hist (K : Type*) where
  nBins : ℕ
  merged : Option (List K × List K)
  perIter : List (List K × List K)
  isLegal : Bool

/-- `__init__` (histogram_collector.py:49-59). -/
def Hist.init (nBins : ℕ) : Hist K := ⟨nBins, none, [], true⟩

/-- `update` (histogram_collector.py:150-159). -/
def Hist.update (s : Hist K) (xs : List K) : Option (Hist K) :=
  (npHistogram xs s.nBins).map fun h => { s with perIter := s.perIter ++ [h] }

/-- `get_histogram` (histogram_collector.py:124-134): new state (the merge is cached) and result.
`none`: invalid data raises, or nothing was collected. -/
def Hist.get (s : Hist K) : Option (Hist K × (List K × List K)) :=
  if s.isLegal then
    match s.merged with
    | some m => some (s, m)
    | none => (mergeHistograms s.nBins s.perIter).map fun m => ({ s with merged := some m }, m)
  else none

/-- `scale` by a scalar (histogram_collector.py:88-104). -/
def Hist.scale (s : Hist K) (f : K) : Option (Hist K) :=
  if s.isLegal then
    s.get.map fun r => { r.1 with merged := some (r.2.1.map (· * f), r.2.2) }
  else some { s with isLegal := false }

/-- `shift` by a scalar (histogram_collector.py:106-122). -/
def Hist.shift (s : Hist K) (f : K) : Option (Hist K) :=
  if s.isLegal then
    s.get.map fun r => { r.1 with merged := some (r.2.1.map (· + f), r.2.2) }
  else some { s with isLegal := false }

/-- `scale`/`shift` by a vector with more than one entry (histogram_collector.py:98-100,116-118). -/
def Hist.perChannel (s : Hist K) : Hist K := { s with isLegal := false }

/-- Collecting a list of batches. -/
def Hist.updates (s : Hist K) (bs : List (List K)) : Option (Hist K) :=
  bs.foldlM Hist.update s

/-! ### Shapes of the weights of the weighted histogram -/

/-- `check_broadcastable` (weighted_histogram_collector.py:21-46): the shape of the weights is padded
with leading ones. -/
def checkBroadcastable (shapeX shapeW : List ℕ) : Bool :=
  decide (shapeW.length ≤ shapeX.length) &&
  (shapeX.zip (List.replicate (shapeX.length - shapeW.length) 1 ++ shapeW)).all
    fun p => decide (p.1 = p.2) || decide (p.2 = 1)

/-- The shape the weights are reshaped to: trailing ones are appended
(weighted_histogram_collector.py:96-103). -/
def paddedShape (shapeX shapeW : List ℕ) : List ℕ :=
  shapeW ++ List.replicate (shapeX.length - shapeW.length) 1

/-- `np.broadcast_to(weights, x_shape)` succeeds for arrays of equal rank
(weighted_histogram_collector.py:106). -/
def broadcastOk (shapeX shapeW : List ℕ) : Bool :=
  decide (shapeW.length = shapeX.length) &&
  (shapeX.zip shapeW).all fun p => decide (p.1 = p.2) || decide (p.2 = 1)

/-- `WeightedHistogramCollector.update`, the shape logic: accepted or an exception
(weighted_histogram_collector.py:86-106). -/
def weightsAccepted (shapeX shapeW : List ℕ) : Bool :=
  checkBroadcastable shapeX shapeW && broadcastOk shapeX (paddedShape shapeX shapeW)

end MCT.Collect
