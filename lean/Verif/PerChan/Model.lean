import Verif.PerChan.Tensor
import Verif.Search.Props

/-!
# Parameters of weights, per channel and per tensor, and the arguments of the exported quantizers

Selection: `core/common/quantization/quantization_params_generation/{power_of_two_selection,
symmetric_selection,uniform_selection,qparams_search}.py`; quantization:
`core/common/quantization/quantizers/uniform_quantizers.py`; export:
`exporter/model_wrapper/{keras,pytorch}/builder/node_to_quantizer.py`.
-/

namespace MCT.PerChan

open MCT.Quant MCT.Search

variable {K : Type} [Field K] [LinearOrder K] [IsStrictOrderedRing K] [FloorRing K]
variable {P : Type} [Zero P]

/-- The loop over the axes (qparams_search.py:63-101,428-467,495-533; power_of_two_selection.py:66-80;
symmetric_selection.py:68-82; uniform_selection.py:67-82): every axis gives one parameter per channel and
an error, the axis with the smallest error wins.  `vec axis rows` is the vectorised computation on the
rows.  With a given axis the list has this one element (without an error in the no-clipping functions,
where there is nothing to compare). -/
def searchAxes (vec : ℕ → List (List K) → Option (List P × K)) (x : Tensor K) (axes : List ℕ) :
    Option (Tensor P × ℕ) :=
  (axes.mapM fun ax => (toRows x ax).bind fun rows => (vec ax rows).map fun r =>
    (ofChannels x.shape.length ax r.1 0, r.2)).bind fun rs =>
  (argminV (rs.map Prod.snd)).bind fun ie =>
  (rs[ie.1]?).bind fun r => (axes[ie.1]?).map fun ax => (r.1, ax)

/-- `search_axes` (qparams_search.py:64,428,495): all of them when the axis is not known. -/
def axesOf (x : Tensor K) : Option ℕ → List ℕ
  | none => List.range x.shape.length
  | some ax => [ax]

/-- Parameters that are computed from each row by itself; `err axis v` is the error of quantizing
with them. -/
def rowwise (sel : List K → Option P) (err : ℕ → List P → K) : ℕ → List (List K) → Option (List P × K) :=
  fun ax rows => (rows.mapM sel).map fun v => (v, err ax v)

/-- The search for power-of-two thresholds on the rows (qparams_search.py:66-99). -/
def potVec (err : List K → List (Option K) → K → K) (n nIter : ℕ) (minThr : K) (signed : Bool) :
    ℕ → List (List K) → Option (List K × K) :=
  fun _ rows => potSearchPerChannel err rows n nIter minThr signed

/-- A value of `weights_quantization_params`: an array, a NumPy scalar or a Python number. -/
inductive Value (K : Type)
  | array (t : Tensor K)
  | npScalar (v : K)
  | pyFloat (v : K)

/-- `value.flatten()`: a Python number has no such method. -/
def Value.flatten : Value K → Option (List K)
  | .array t => some (ravel t)
  | .npScalar v => some [v]
  | .pyFloat _ => none

/-- `len(value.shape)`. -/
def Value.rank : Value K → Option ℕ
  | .array t => some t.shape.length
  | .npScalar _ => some 0
  | .pyFloat _ => none

/-- The value used for the element at an index, by broadcasting. -/
def Value.read : Value K → List ℕ → K
  | .array t, i => bcast t i
  | .npScalar v, _ => v
  | .pyFloat v, _ => v

/-- Python's `max(a, b)` of the Python number `min_threshold` and a NumPy scalar: the first one unless
the second is larger (symmetric_selection.py:206, qparams_search.py:463). -/
def pyMax (a b : K) : Value K := if b > a then .npScalar b else .pyFloat a

/-- `power_of_two_selection_tensor` without clipping (power_of_two_selection.py:65-80): the threshold and
the axis. `err axis v` is the normalised error of quantizing with the thresholds `v` along the axis. -/
def potNoClipSelect (err : ℕ → List K → K) (x : Tensor K) (perChannel : Bool) (ax : Option ℕ) (n : ℕ)
    (minThr : K) : Option (Value K × Option ℕ) :=
  if perChannel then
    (searchAxes (rowwise (fun xs => potNoClip xs n minThr) err) x (axesOf x ax)).map fun r =>
      (.array r.1, some r.2)
  else (potNoClip (ravel x) n minThr).map fun t => (.npScalar t, ax)

/-- `symmetric_selection_tensor` without clipping (symmetric_selection.py:67-82); `get_init_threshold`
(189-206) keeps arrays and takes Python's `max` per tensor. -/
def symNoClipSelect (err : ℕ → List K → K) (x : Tensor K) (perChannel : Bool) (ax : Option ℕ) (n : ℕ)
    (minThr : K) : Option (Value K × Option ℕ) :=
  if perChannel then
    (searchAxes (rowwise (fun xs => symNoClip xs n minThr) err) x (axesOf x ax)).map fun r =>
      (.array r.1, some r.2)
  else (tensorMaxOf (ravel x) n false).map fun m => (pyMax minThr m, ax)

/-- `uniform_selection_tensor` without clipping (uniform_selection.py:66-105): both ends of the range. -/
def uniNoClipSelect (err : ℕ → List (K × K) → K) (x : Tensor K) (perChannel : Bool) (ax : Option ℕ)
    (n : ℕ) : Option (Value K × Value K × Option ℕ) :=
  if perChannel then
    (searchAxes (rowwise (fun xs => uniNoClip xs n false) err) x (axesOf x ax)).map fun r =>
      (.array ⟨r.1.shape, fun i => (r.1.get i).1⟩, .array ⟨r.1.shape, fun i => (r.1.get i).2⟩, some r.2)
  else (uniNoClip (ravel x) n true).map fun p => (.npScalar p.1, .npScalar p.2, ax)

/-- `power_of_two_selection_tensor` with a search (power_of_two_selection.py:81-96): per tensor the
threshold is reshaped to an array with one element (qparams_search.py:68,98). -/
def potSearchSelect (errC : List K → List (Option K) → K → K) (errT : List (Option K) → List K → K → K)
    (x : Tensor K) (perChannel : Bool) (ax : Option ℕ) (n nIter : ℕ) (minThr : K) :
    Option (Value K × Option ℕ) :=
  if perChannel then
    (searchAxes (potVec errC n nIter minThr true) x (axesOf x ax)).map fun r => (.array r.1, some r.2)
  else (potSearch errT (ravel x) n nIter minThr true).map fun t =>
    (.array { shape := List.replicate x.shape.length 1, get := fun _ => t.1 }, ax)

/-- `symmetric_quantizer` and `power_of_two_quantizer` (uniform_quantizers.py:32-101): every element with
the threshold broadcast to it; a threshold that is not positive is refused by the scalar quantizer of
the model (`quantizeTensor`). The check that a threshold is a power of two is C115. -/
def quantizeSym (x : Tensor K) (p : Value K) (n : ℕ) (idx : List ℕ) : Option K :=
  quantizeTensor (x.get idx) (p.read idx) n true

/-- `uniform_quantizer` (uniform_quantizers.py:104-131). -/
def quantizeUni (x : Tensor K) (lo hi : Value K) (n : ℕ) (idx : List ℕ) : Option K :=
  uniformQuantize (x.get idx) (lo.read idx) (hi.read idx) n

/-! ### Export -/

/-- The two frameworks: only Keras passes the rank of the input for the methods below. -/
inductive Framework
  | keras
  | pytorch
  deriving DecidableEq

/-- Arguments of the exported quantizers with thresholds. -/
structure SymArgs (K : Type) where
  numBits : ℕ
  threshold : List K
  perChannel : Bool
  channelAxis : Option ℕ
  inputRank : Option ℕ

/-- Arguments of the exported uniform quantizers. -/
structure UniArgs (K : Type) where
  numBits : ℕ
  minRange : List K
  maxRange : List K
  perChannel : Bool
  channelAxis : Option ℕ
  inputRank : Option ℕ

/-- `input_rank` as passed by the framework (keras node_to_quantizer.py:63,71). -/
def inputRank (fw : Framework) (v : Value K) : Option (Option ℕ) :=
  match fw with
  | .pytorch => some none
  | .keras => v.rank.map some

/-- Keyword arguments for the power-of-two and symmetric methods
(pytorch node_to_quantizer.py:56-64, keras node_to_quantizer.py:56-63). -/
def symArgs (fw : Framework) (n : ℕ) (perChannel : Bool) (p : Value K) (ax : Option ℕ) :
    Option (SymArgs K) :=
  p.flatten.bind fun t => (inputRank fw p).map fun r =>
    { numBits := n, threshold := t, perChannel := perChannel, channelAxis := ax, inputRank := r }

/-- Keyword arguments for the uniform method
(pytorch node_to_quantizer.py:66-72, keras node_to_quantizer.py:65-71). -/
def uniArgs (fw : Framework) (n : ℕ) (perChannel : Bool) (lo hi : Value K) (ax : Option ℕ) :
    Option (UniArgs K) :=
  lo.flatten.bind fun a => hi.flatten.bind fun b => (inputRank fw lo).map fun r =>
    { numBits := n, minRange := a, maxRange := b, perChannel := perChannel, channelAxis := ax,
      inputRank := r }

/-- What the arguments mean to the quantizers of `mct_quantizers` (not part of the repository): element
`idx` is quantized with the entry of its position along the channel axis, or with the only entry. -/
def entry (l : List K) (perChannel : Bool) (ax : Option ℕ) (idx : List ℕ) : K :=
  if perChannel then l.getD (idx.getD (ax.getD 0) 0) 0 else l.getD 0 0

/-- The exported quantizer with thresholds. -/
def exportedSym (a : SymArgs K) (x : Tensor K) (idx : List ℕ) : Option K :=
  quantizeTensor (x.get idx) (entry a.threshold a.perChannel a.channelAxis idx) a.numBits true

/-- The exported uniform quantizer. -/
def exportedUni (a : UniArgs K) (x : Tensor K) (idx : List ℕ) : Option K :=
  uniformQuantize (x.get idx) (entry a.minRange a.perChannel a.channelAxis idx)
    (entry a.maxRange a.perChannel a.channelAxis idx) a.numBits

end MCT.PerChan
