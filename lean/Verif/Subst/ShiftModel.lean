/-
Model of the shift negative correction.

Sources (under /repo/model_compression_toolkit/core):
  common/substitutions/shift_negative_activation.py
  keras/graph_substitutions/substitutions/shift_negative_activation.py
  pytorch/graph_substitutions/substitutions/shift_negative_activation.py

Keras Dense and PyTorch Linear layers are convolutions with a 1x1 kernel. The quantization
configurations of the new nodes, the statistics and the fusing information are not modelled here.
-/
import Verif.Subst.Model
import Verif.Search.Model
import Mathlib.Order.WithBot
import Mathlib.Data.Rat.Floor

namespace MCT.Subst
open MCT.SubstSpec Finset

variable {K P : Type*} [Field K]

/-! ### The bias of the linear layer -/

/-- `np.sum(kernel, axis=axis_not_output_channel).flatten()` (shift_negative_activation.py 74-85): the
sum over all axes but the output axis; for Keras depthwise kernels, whose two channel axes are the
same, over all but the last two. Transposed convolutions are not among the linear layers: `none`. -/
def kernelSums (c : Conv K) : Option (Nat → K) :=
  match c.kind with
  | .kerasConv => some (fun o => ∑ t ∈ range (c.kh * c.kw), ∑ i ∈ range (c.cin / c.groups),
      c.kernel ((t * (c.cin / c.groups) + i) * c.cout + o))
  | .kerasDepthwise => some (fun o => ∑ t ∈ range (c.kh * c.kw),
      c.kernel (t * (c.cin * (c.cout / c.cin)) + o))
  | .torchConv => some (fun o => ∑ i ∈ range (c.cin / c.groups), ∑ t ∈ range (c.kh * c.kw),
      c.kernel ((o * (c.cin / c.groups) + i) * (c.kh * c.kw) + t))
  | _ => none

/-- `op2d_bias_correction` (shift_negative_activation.py 46-87). -/
def correctBias (c : Conv K) (shift : K) : Option (Conv K) :=
  (kernelSums c).map (fun s => { c with bias := some (fun o => orConst c.bias 0 o - shift * s o) })

/-! ### The value of the shift -/

section Shift
variable [LinearOrder K]

/-- Whether the correction is applied (shift_negative_activation.py 307-311). -/
def shiftEnabled (minV threshold ratio : K) : Bool :=
  decide (¬ (0 ≤ minV) ∧ |minV| / threshold ≤ ratio)

/-- `shift_value` (shift_negative_activation.py 313-322): the quantized point for which point plus
minimum is least among those where it is not negative (`inf` elsewhere). `linspace` from 0 to
`threshold - lsb` with `2^n` points has the step `lsb`. -/
def shiftValue (minV threshold : K) (n : Nat) : K :=
  let lsb := threshold / 2 ^ n
  let delta : List (WithTop K) := (List.range (2 ^ n)).map (fun i : Nat =>
    if (i : K) * lsb + minV < 0 then (⊤ : WithTop K) else (((i : K) * lsb + minV : K) : WithTop K))
  match MCT.Search.argminV delta with
  | none => 0
  | some (i, _) => (i : K) * lsb

variable [FloorRing K]

/-- The error of a shift and a threshold in the parameter search (shift_negative_activation.py 331-354
with `_mse_error_histogram`): the histogram, shifted, against its unsigned quantization. -/
def shiftError (bins counts : List K) (n : Nat) (t shift : K) : Option K := do
  let q ← (bins.map (fun b => b + shift)).mapM (fun b => MCT.Quant.quantizeTensor b t n false)
  let errs := List.zipWith (fun d c => d ^ 2 * c)
    (List.zipWith (fun a b => a - (b + shift)) q bins).dropLast counts
  pure (errs.sum / counts.sum)

/-- One round of the search: the first pair with the least error is kept (shift_negative_activation.py 346-349).
Simplification: a pair without an error is skipped. -/
def shiftKeep {A : Type*} (best : Option (K × A)) (p : A) (err : Option K) : Option (K × A) :=
  match err, best with
  | none, b => b
  | some e, none => some (e, p)
  | some e, some b => if e < b.1 then some (e, p) else some b

/-- The parameter search (shift_negative_activation.py 324-362): all shifts for the threshold and twice
the threshold; the first one with the least error. -/
def shiftSearch (bins counts : List K) (n : Nat) (t : K) : Option (K × K) :=
  let cands := [t, 2 * t].flatMap (fun t' => (List.range (2 ^ n)).map (fun i : Nat =>
    (t', (i : K) * (t' / 2 ^ n))))
  (cands.foldl (fun (best : Option (K × K × K)) (p : K × K) => shiftKeep best p (shiftError bins counts n p.1 p.2)) none).map Prod.snd

end Shift

/-! ### Padding -/

/-- One axis of `compute_op2d_padding` (keras shift_negative_activation.py 160-186): elements before and
after; `//` rounds down. -/
def kerasAxisPadding (stride out inp k : Nat) : Int × Int :=
  let along : Int := stride * out - inp + k - stride
  (along / 2, along - along / 2)

/-- The padding attribute of a PyTorch convolution: a number, a pair, or a string. -/
inductive TorchPad where
  | number (p : Nat)
  | pair (ph pw : Nat)
  | text
deriving DecidableEq

/-- `get_padding_values` (pytorch shift_negative_activation.py 176-196): the elements to pad (top,
bottom, left, right) and the new attribute; a string is left as it is. -/
def torchPadding : TorchPad → Option (Int × Int × Int × Int) × TorchPad
  | .number p => (some (p, p, p, p), .number 0)
  | .pair ph pw => (some (ph, ph, pw, pw), .number 0)
  | .text => (none, .text)

/-- `get_padding_values` (keras 189-205): only "same" padding of kernels other than 1x1. -/
def kerasPadding (same : Bool) (kh kw : Nat) (h w : Int × Int) : Option (Int × Int × Int × Int) :=
  if same && !(decide (kh = 1 ∧ kw = 1)) then some (h.1, h.2, w.1, w.2) else none

/-- Whether a pad node is inserted (shift_negative_activation.py 409-410). -/
def padInserted (pad : Option (Int × Int × Int × Int)) : Bool :=
  match pad with
  | none => false
  | some (a, b, c, d) => decide (0 < a + b + c + d)

/-- The padding attribute of the zero padding layers of the two frameworks: Keras ZeroPadding2D has
((top, bottom), (left, right)), PyTorch ZeroPad2d (left, right, top, bottom). -/
inductive ZeroPadAttr where
  | pairs (top bottom left right : Nat)
  | flat (left right top bottom : Nat)

/-- Reading `padding[0][0]` and so on (shift_negative_activation.py 366-367): indexing a number raises. -/
def zeroPadValues : ZeroPadAttr → Option (Nat × Nat × Nat × Nat)
  | .pairs t b l r => some (t, b, l, r)
  | .flat _ _ _ _ => none

end MCT.Subst
