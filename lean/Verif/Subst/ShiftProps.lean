/-
C37: shift negative correction.
-/
import Verif.Subst.ShiftLemmas
import Verif.Subst.EqualizeProps
import Verif.Graph.ChainInsert
import Verif.Graph.PropsSubst
import Verif.Graph.Witness
import Mathlib.Data.List.GetD
import Verif.Common.Lists

namespace MCT.SubstSpec
variable {K P : Type*} [Field K]

/-- Every entry of a tensor shifted. -/
def shifted (s : K) (X : Nat → P → K) : Nat → P → K := fun i p => X i p + s

/-- A layer without weights passes a shift of its input on to its output. -/
def ShiftEquivariant (s : K) (f : (Nat → P → K) → Nat → P → K) : Prop :=
  ∀ X, f (shifted s X) = shifted s (f X)

/-- Padding with a constant: `orig p` is the position in the tensor that position `p` of the padded
tensor shows, if there is one. -/
def constPad (orig : P → Option P) (s : K) (X : Nat → P → K) : Nat → P → K :=
  fun i p => match orig p with | some q => X i q | none => s

/-- The position a tap of a two dimensional convolution reads, from the two axes. -/
def convSrc (ah aw : Nat → Nat → Option Nat) (kw : Nat) (p : Nat × Nat) (t : Nat) : Option (Nat × Nat) :=
  match ah p.1 (t / kw), aw p.2 (t % kw) with
  | some y, some x => some (y, x)
  | _, _ => none

/-- The position of a tensor of `h` rows and `w` columns that a position of the padded tensor shows. -/
def padOrig (h w top left : Nat) (p : Nat × Nat) : Option (Nat × Nat) :=
  if (top ≤ p.1 ∧ p.1 < top + h) ∧ (left ≤ p.2 ∧ p.2 < left + w) then some (p.1 - top, p.2 - left)
  else none

/-- The padding TensorFlow's "same" puts before and after an axis. -/
def samePadding (stride out inp k dil : Nat) : Nat × Nat :=
  let total := (out - 1) * stride + (k - 1) * dil + 1 - inp
  (total / 2, total - total / 2)

end MCT.SubstSpec

namespace MCT.Subst
open MCT.SubstSpec MCT.GraphSpec Finset

set_option linter.unusedSectionVars false
set_option linter.unusedVariables false
set_option linter.unusedSimpArgs false

section Layer
variable {K P : Type*} [Field K]

/-! ### The linear layer -/

/-- **C37**, without padding: for every kernel, bias (or none), shift and input, every supported kind of
layer with any number of groups, the corrected layer computes from the shifted input what the layer
computed from the input. -/
theorem C37_bias_corrected {c c' : Conv K} (hv : c.Valid) {s : K} (h : correctBias c s = some c')
    (src : P → Nat → Option P) (X : Nat → P → K) {o : Nat} (ho : o < c.cout) (p : P)
    (hin : ∀ t < c.kh * c.kw, (src p t).isSome = true) :
    c'.out src (shifted s X) o p = c.out src X o p := by
  apply correct_out hv h ho
  intro i t _ ht
  obtain ⟨q, hq⟩ := Option.isSome_iff_exists.1 (hin t ht)
  rw [hq]; rfl

/-- **C37**, with padding: the layer that pads with zeros is replaced by padding with the shift and the
corrected layer without padding. -/
theorem C37_padded {c c' : Conv K} (hv : c.Valid) {s : K} (h : correctBias c s = some c')
    (src src' : P → Nat → Option P) (orig : P → Option P) (X : Nat → P → K) {o : Nat} (ho : o < c.cout)
    (p : P) (hin : ∀ t < c.kh * c.kw, ∃ q, src' p t = some q ∧ orig q = src p t) :
    c'.out src' (constPad orig s (shifted s X)) o p = c.out src X o p := by
  apply correct_out hv h ho
  intro i t _ ht
  obtain ⟨q, hq, hq'⟩ := hin t ht
  rw [hq, ← hq']
  simp only [tap, constPad, shifted]
  cases orig q <;> simp [tap]

/-- **C37**: a layer for zero padding in front of the layer, replaced by padding with the shift. -/
theorem C37_zero_padding_layer {c c' : Conv K} (hv : c.Valid) {s : K} (h : correctBias c s = some c')
    (src : P → Nat → Option P) (orig : P → Option P) (X : Nat → P → K) {o : Nat} (ho : o < c.cout)
    (p : P) (hin : ∀ t < c.kh * c.kw, (src p t).isSome = true) :
    c'.out src (constPad orig s (shifted s X)) o p = c.out src (zeroPad orig X) o p := by
  apply correct_out hv h ho
  intro i t _ ht
  obtain ⟨q, hq⟩ := Option.isSome_iff_exists.1 (hin t ht)
  rw [hq]
  simp only [tap, constPad, shifted, zeroPad]
  cases orig q <;> simp [tap]

/-- **C37**, concretely: a convolution with strides, dilations and any padding on an image of `h` times
`w`, at every output position whose taps stay inside the padded image. -/
theorem C37_conv_padded {c c' : Conv K} (hv : c.Valid) {s : K} (h : correctBias c s = some c')
    {ih iw sh sw dh dw top btm left right : Nat} (X : Nat → Nat × Nat → K) {o : Nat} (ho : o < c.cout)
    (p : Nat × Nat) (hy : p.1 * sh + (c.kh - 1) * dh < ih + top + btm)
    (hx : p.2 * sw + (c.kw - 1) * dw < iw + left + right) :
    c'.out (convSrc (convAxis (ih + top + btm) sh 0 dh) (convAxis (iw + left + right) sw 0 dw) c.kw)
      (constPad (padOrig ih iw top left) s (shifted s X)) o p =
    c.out (convSrc (convAxis ih sh top dh) (convAxis iw sw left dw) c.kw) X o p := by
  apply C37_padded hv h _ _ _ _ ho
  intro t ht
  have hkw : 0 < c.kw := Nat.pos_of_ne_zero (by rintro h0; rw [h0] at ht; simp at ht)
  have h1 : t / c.kw ≤ c.kh - 1 := by
    have : t / c.kw < c.kh := Nat.div_lt_of_lt_mul (by rwa [Nat.mul_comm])
    omega
  have h2 : t % c.kw ≤ c.kw - 1 := by have := Nat.mod_lt t hkw; omega
  have b1 : p.1 * sh + t / c.kw * dh < ih + top + btm :=
    lt_of_le_of_lt (Nat.add_le_add_left (Nat.mul_le_mul_right _ h1) _) hy
  have b2 : p.2 * sw + t % c.kw * dw < iw + left + right :=
    lt_of_le_of_lt (Nat.add_le_add_left (Nat.mul_le_mul_right _ h2) _) hx
  refine ⟨(p.1 * sh + t / c.kw * dh, p.2 * sw + t % c.kw * dw), ?_, ?_⟩
  · simp [convSrc, convAxis, b1, b2]
  · simp only [padOrig, convSrc, convAxis]
    by_cases c1 : top ≤ p.1 * sh + t / c.kw * dh ∧ p.1 * sh + t / c.kw * dh - top < ih
    · by_cases c2 : left ≤ p.2 * sw + t % c.kw * dw ∧ p.2 * sw + t % c.kw * dw - left < iw
      · have d1 : p.1 * sh + t / c.kw * dh < top + ih := by omega
        have d2 : p.2 * sw + t % c.kw * dw < left + iw := by omega
        simp [c1, c2, d1, d2]
      · have d2 : ¬ (left ≤ p.2 * sw + t % c.kw * dw ∧ p.2 * sw + t % c.kw * dw < left + iw) := by omega
        simp only [c1, c2, d2, and_false, if_true, if_false, and_self]
    · have d1 : ¬ (top ≤ p.1 * sh + t / c.kw * dh ∧ p.1 * sh + t / c.kw * dh < top + ih) := by omega
      simp only [c1, d1, false_and, if_false]

/-- Layers it applies to: with a bias, without one, depthwise with a multiplier, grouped. -/
example : keras22.Valid ∧ (correctBias keras22 (3 : ℚ)).isSome = true ∧
    grouped1.Valid ∧ (correctBias grouped1 (3 : ℚ)).isSome = true ∧
    (correctBias depthwise2 (3 : ℚ)).isSome = true := by
  refine ⟨⟨?_, ?_, ?_, ?_, ?_, ?_, ?_⟩, ?_, ⟨?_, ?_, ?_, ?_, ?_, ?_, ?_⟩, ?_, ?_⟩ <;> decide +kernel

/-- A 3 by 1 kernel on an image of 5 by 4 with one row of padding, stride 2: all output positions. -/
example : ∀ p < 3, p * 2 + (grouped1.kh - 1) * 1 < 5 + 1 + 1 := by decide

/-! ### Layers that are passed over -/

/-- **C37**: layers that only move entries (reshape, flatten), and dropout, which is the identity when
the model is used, pass a shift on. -/
theorem C37_reindex_equivariant (s : K) (ix : Nat → P → Nat × P) :
    ShiftEquivariant s (fun X i p => X (ix i p).1 (ix i p).2) := fun _ => rfl

theorem C37_identity_equivariant (s : K) : ShiftEquivariant (P := P) s (fun X => X) := fun _ => rfl

/-- **C37**: averaging over a fixed non-empty list of positions (global average pooling, average pooling
without padding) passes a shift on. -/
theorem C37_average_equivariant [CharZero K] (s : K) (window : P → List P) (hw : ∀ p, window p ≠ []) :
    ShiftEquivariant s (fun X i p => ((window p).map (X i)).sum / (window p).length) := by
  intro X
  funext i p
  have hl : ((window p).length : K) ≠ 0 := by
    have : (window p).length ≠ 0 := fun h => hw p (List.length_eq_zero_iff.1 h)
    exact_mod_cast this
  have : ∀ l : List P, (l.map (shifted s X i)).sum = (l.map (X i)).sum + l.length * s := by
    intro l
    induction l with
    | nil => simp
    | cons a l ih => simp only [List.map_cons, List.sum_cons, ih, List.length_cons, shifted]; push_cast; ring
  simp only [this, shifted]
  field_simp

/-- **C37 is violated** across average pooling with zero padding (`avg_pool2d(x, 3, padding=1)`), which
the PyTorch substitution passes over: the average at the border is over zeros as well and moves by less
than the shift. -/
theorem C37_avg_pool_padded_violated :
    ¬ ShiftEquivariant (1 : ℚ) (fun (X : Nat → Nat → ℚ) i p =>
      (([0, 1, 2].map (fun t => tap X i (convAxis 4 1 1 1 p t))).sum) / 3) := by
  intro h
  have := congrFun (congrFun (h (fun _ _ => 0)) 0) 0
  revert this
  simp [shifted, tap, convAxis]
  norm_num

/-! ### The padding that is put in place -/

/-- **C37**, as far as it holds: for a Keras layer with "same" padding the elements that are padded are
those TensorFlow pads, for every stride, size and kernel, when there is no dilation and the windows
reach the end of the axis. Missing: `C37_dilation_violated` and `C37_stride_violated`. -/
theorem C37_same_padding_partial {stride out inp k : Nat} (hk : 1 ≤ k) (ho : 1 ≤ out)
    (h : inp ≤ (out - 1) * stride + k) :
    kerasAxisPadding stride out inp k =
      (((samePadding stride out inp k 1).1 : Int), ((samePadding stride out inp k 1).2 : Int)) := by
  obtain ⟨o, rfl⟩ := Nat.exists_eq_add_of_le' ho
  obtain ⟨k, rfl⟩ := Nat.exists_eq_add_of_le' hk
  simp only [Nat.add_sub_cancel] at h
  have e : ((stride : Int) * ((o + 1 : Nat) : Int) - inp + ((k + 1 : Nat) : Int) - stride) =
      ((o * stride + k * 1 + 1 - inp : Nat) : Int) := by
    have : inp ≤ o * stride + k * 1 + 1 := by omega
    push_cast [this]
    ring
  simp only [kerasAxisPadding, samePadding, Nat.add_sub_cancel, e]
  have h2 : (o * stride + k * 1 + 1 - inp) / 2 ≤ o * stride + k * 1 + 1 - inp := Nat.div_le_self _ _
  refine Prod.ext ?_ ?_ <;> simp only
  · exact (Int.natCast_div _ 2).symm
  · rw [Int.ofNat_sub h2, Int.natCast_div]; rfl

/-- 224 pixels, stride 2, kernel 3: 0 before, 1 after. -/
example : (224 : Nat) ≤ (112 - 1) * 2 + 3 ∧ kerasAxisPadding 2 112 224 3 = (0, 1) := by decide

/-- **C37 is violated** for a dilated Keras convolution with "same" padding: the padding that is computed
does not know the dilation, one element on each side instead of two. -/
theorem C37_dilation_violated :
    samePadding 1 5 5 3 2 = (2, 2) ∧ kerasAxisPadding 1 5 5 3 = (1, 1) := by decide

/-- **C37 is violated** when the stride is larger than the kernel on one axis: -1 elements are computed
there, the sum of the four numbers can be 0, and then the padding of the other axis is lost (the layer
itself has been set to "valid"). Kernel 1 by 2, stride 2 by 1, image 4 by 4. -/
theorem C37_stride_violated :
    samePadding 2 2 4 1 1 = (0, 0) ∧ samePadding 1 4 4 2 1 = (0, 1) ∧
      kerasPadding true 1 2 (kerasAxisPadding 2 2 4 1) (kerasAxisPadding 1 4 4 2) = some (-1, 0, 0, 1) ∧
      padInserted (some (-1, 0, 0, 1)) = false := by
  decide

/-- **C37**: a Keras layer without padding, or with a kernel of one element, gets no padding layer; any other
layer with "same" padding gets one with the computed elements, unless they are all zero. -/
theorem C37_keras_padding (kh kw : Nat) (h w : Int × Int) :
    padInserted (kerasPadding false kh kw h w) = false ∧ padInserted (kerasPadding true 1 1 h w) = false ∧
    (¬ (kh = 1 ∧ kw = 1) → kerasPadding true kh kw h w = some (h.1, h.2, w.1, w.2)) ∧
    (¬ (kh = 1 ∧ kw = 1) → 0 ≤ h.1 → 0 ≤ h.2 → 0 ≤ w.1 → 0 ≤ w.2 →
      (padInserted (kerasPadding true kh kw h w) = false ↔ h = 0 ∧ w = 0)) := by
  refine ⟨rfl, rfl, ?_, ?_⟩
  · intro hk
    unfold kerasPadding
    simp only [hk, decide_false, Bool.not_false, Bool.and_self, if_true]
  · intro hk h1 h2 h3 h4
    have : kerasPadding true kh kw h w = some (h.1, h.2, w.1, w.2) := by
      unfold kerasPadding
      simp only [hk, decide_false, Bool.not_false, Bool.and_self, if_true]
    rw [this]
    simp only [padInserted, decide_eq_false_iff_not, Prod.ext_iff, Prod.fst_zero, Prod.snd_zero]
    omega

/-- **C37**: of a PyTorch convolution whose padding is a number or a pair all of it is moved to the new
layer, and a layer is inserted exactly when there is anything to pad. -/
theorem C37_torch_padding (pad : TorchPad) (h : pad ≠ .text) :
    ∃ ph pw : Nat, torchPadding pad = (some ((ph : Int), (ph : Int), (pw : Int), (pw : Int)), .number 0) ∧
      (pad = .number ph ∧ ph = pw ∨ pad = .pair ph pw) ∧
      (padInserted (some ((ph : Int), (ph : Int), (pw : Int), (pw : Int))) = true ↔ ph ≠ 0 ∨ pw ≠ 0) := by
  cases pad with
  | number p => refine ⟨p, p, rfl, Or.inl ⟨rfl, rfl⟩, ?_⟩; simp only [padInserted, decide_eq_true_eq]; omega
  | pair a b => refine ⟨a, b, rfl, Or.inr rfl, ?_⟩; simp only [padInserted, decide_eq_true_eq]; omega
  | text => exact absurd rfl h

/-- **C37 is violated** for a PyTorch convolution with `padding="same"`: the padding stays in the layer,
which pads the shifted tensor with zeros, and the corrected bias takes back more than was added at the
border. One channel, kernel 3 of ones, shift 1, input 0. -/
theorem C37_torch_same_violated :
    torchPadding .text = (none, .text) ∧ padInserted (torchPadding .text).1 = false ∧
    ∃ c c' : Conv ℚ, c.Valid ∧ correctBias c 1 = some c' ∧
      c'.out (fun p t => convAxis 4 1 1 1 p t) (shifted 1 (fun _ _ => 0)) 0 0 ≠
        c.out (fun p t => convAxis 4 1 1 1 p t) (fun _ _ => 0) 0 0 := by
  refine ⟨rfl, rfl, ⟨.torchConv, 1, 1, 1, 1, 3, fun _ => 1, none⟩, _,
    ⟨?_, ?_, ?_, ?_, ?_, ?_, ?_⟩, rfl, ?_⟩ <;> decide +kernel

/-- **C37 is violated** for a PyTorch convolution with padding mode "reflect": the layer that padded with
mirrored entries is replaced by padding with the constant. One channel, kernel 3 of ones, shift 1,
input 5 everywhere. -/
theorem C37_padding_mode_violated :
    ∃ c c' : Conv ℚ, c.Valid ∧ correctBias c 1 = some c' ∧
      c'.out (convAxis 6 1 0 1) (constPad (fun p => if 1 ≤ p ∧ p < 5 then some (p - 1) else none) 1
        (shifted 1 (fun _ _ => 5))) 0 0 ≠
      c.out (fun p t => if p + t = 0 then some 1 else if p + t = 5 then some 2 else some (p + t - 1))
        (fun _ _ => 5) 0 0 := by
  refine ⟨⟨.torchConv, 1, 1, 1, 1, 3, fun _ => 1, none⟩, _,
    ⟨?_, ?_, ?_, ?_, ?_, ?_, ?_⟩, rfl, ?_⟩ <;> decide +kernel

/-- **C37 is not reached** with a PyTorch ZeroPad2d layer in front: its padding is (left, right, top,
bottom) and is read like the nested pairs of Keras, which raises an error; the pairs of Keras are read as they are. -/
theorem C37_torch_pad_layer_fails (l r t b : Nat) :
    zeroPadValues (.flat l r t b) = none ∧ zeroPadValues (.pairs t b l r) = some (t, b, l, r) := ⟨rfl, rfl⟩

/-- **C37 is not reached** with a bypass layer before a zero padding layer: the padding layer is removed
from between the non-linear and the linear layer though its input is the bypass layer, which fails. -/
theorem C37_pad_after_bypass_fails :
    MCT.Graph.removeBetween (⟨[0, 1, 2, 3, 4], [⟨0, 1, 0, 0⟩, ⟨1, 2, 0, 0⟩, ⟨2, 3, 0, 0⟩, ⟨3, 4, 0, 0⟩], [0],
      [(4, 0)]⟩ : MCT.Graph.Gr Nat) 3 1 4 = none := by
  decide

end Layer

/-! ### The value of the shift -/

section Value
variable {K P : Type*} [Field K] [LinearOrder K] [IsStrictOrderedRing K]

/-- **C37**, the shift: for every threshold, number of bits and minimum within the quantized points, the
shift is a quantized point, makes the least activation (and so all) non-negative, and is the least such
point. -/
theorem C37_shift_value {minV t : K} {n : Nat} (ht : 0 < t) (h : -minV ≤ t - t / 2 ^ n) :
    (∃ i : Nat, i < 2 ^ n ∧ shiftValue minV t n = (i : K) * (t / 2 ^ n)) ∧ (∀ x, minV ≤ x → 0 ≤ x + shiftValue minV t n) ∧
      ∀ j : Nat, j < 2 ^ n → (j : K) * (t / 2 ^ n) < shiftValue minV t n → (j : K) * (t / 2 ^ n) + minV < 0 := by
  have hlsb : 0 < t / 2 ^ n := by positivity
  obtain ⟨i, hi, hf1, hf2, hf3⟩ := MCT.Search.argminV_map_range (fun i : Nat =>
    if (i : K) * (t / 2 ^ n) + minV < 0 then (⊤ : WithTop K)
      else (((i : K) * (t / 2 ^ n) + minV : K) : WithTop K)) (2 ^ n) Nat.one_le_two_pow
  have hval : shiftValue minV t n = (i : K) * (t / 2 ^ n) := by
    simp only [shiftValue]
    rw [hi]
  have hpow : ((2 ^ n - 1 : Nat) : K) * (t / 2 ^ n) = t - t / 2 ^ n := by
    rw [Nat.cast_sub Nat.one_le_two_pow]
    push_cast
    field_simp
  have hlast : ¬ ((2 ^ n - 1 : Nat) : K) * (t / 2 ^ n) + minV < 0 := by
    rw [hpow]; linarith
  have hnn : ¬ (i : K) * (t / 2 ^ n) + minV < 0 := by
    intro hneg
    have := hf2 (2 ^ n - 1) (by have := Nat.one_le_two_pow (n := n); omega)
    simp only at this
    rw [if_pos hneg, if_neg hlast] at this
    exact absurd this (not_le.2 (WithTop.coe_lt_top _))
  refine ⟨⟨i, hf1, hval⟩, ?_, ?_⟩
  · intro x hx
    rw [hval]
    have := not_lt.1 hnn
    linarith
  · intro j hj hlt
    rw [hval] at hlt
    have hji : j < i := by
      by_contra hc
      have : (i : K) ≤ j := by exact_mod_cast not_lt.1 hc
      exact absurd hlt (not_lt.2 (mul_le_mul_of_nonneg_right this hlsb.le))
    by_contra hc
    have h2 := hf3 j hji
    simp only at h2
    rw [if_neg hnn, if_neg hc] at h2
    have := WithTop.coe_lt_coe.1 h2
    linarith

/-- **C37**: the condition of the substitution, with its default ratio or any ratio that leaves room for
one quantization step, gives what `C37_shift_value` needs. -/
theorem C37_shift_condition {minV t ratio : K} {n : Nat} (ht : 0 < t) (h : shiftEnabled minV t ratio = true)
    (hr : ratio ≤ 1 - 1 / 2 ^ n) : minV < 0 ∧ -minV ≤ t - t / 2 ^ n := by
  simp only [shiftEnabled, decide_eq_true_eq] at h
  obtain ⟨h1, h2⟩ := h
  have hneg := not_le.1 h1
  refine ⟨hneg, ?_⟩
  rw [abs_of_neg hneg, div_le_iff₀ ht] at h2
  have h3 : ratio * t ≤ (1 - 1 / 2 ^ n) * t := mul_le_mul_of_nonneg_right hr ht.le
  have : (1 - 1 / 2 ^ n) * t = t - t / 2 ^ n := by ring
  linarith

example : shiftEnabled (-1 / 4 : ℚ) 4 (1 / 4) = true ∧ (1 / 4 : ℚ) ≤ 1 - 1 / 2 ^ 8 ∧
    shiftValue (-1 / 4 : ℚ) 4 3 = 1 / 2 := by decide +kernel

/-- **C37 is violated** for a minimum beyond the last quantized point (ratio 1, which the configuration
allows): every candidate is infinite, the first one, 0, is taken, and activations stay negative. -/
theorem C37_shift_exceeds_violated :
    shiftEnabled (-1 : ℚ) 1 1 = true ∧ shiftValue (-1 : ℚ) 1 3 = 0 := by decide +kernel

end Value

/-- **C37 is violated** with the parameter search: the search keeps the pair with the least error, whatever
becomes of negative values. Minimum -1 (one sample of 101), threshold 32, 5 bits: no shift is chosen. -/
theorem C37_search_violated :
    shiftEnabled (-1 : ℚ) 32 (1 / 4) = true ∧ shiftSearch [-1, 31, 32] [1, 100] 5 (32 : ℚ) = some (32, 0) := by
  constructor <;> decide +kernel

section Search
variable {K : Type} [Field K] [LinearOrder K] [IsStrictOrderedRing K] [FloorRing K]

/-- The mean squared error, over the samples of a histogram, of the unsigned quantization of the values after a shift:
`bins` are the edges of the bins, of which the left ones count, `counts` the numbers of samples. -/
def ShiftedErr (bins counts : List K) (n : Nat) (t s e : K) : Prop :=
  ∃ q : Nat → K, (∀ j b, bins[j]? = some b → MCT.Quant.quantizeTensor (b + s) t n false = some (q j)) ∧
    e = (∑ j ∈ Finset.range counts.length, counts.getD j 0 * ((bins.getD j 0 + s) - q j) ^ 2) / counts.sum

theorem sum_getD_range (l : List K) : l.sum = ∑ j ∈ Finset.range l.length, l.getD j 0 := by
  induction l with
  | nil => simp
  | cons a l ih =>
    rw [List.sum_cons, ih, List.length_cons, Finset.sum_range_succ']
    simp [add_comm]

theorem shiftError_iff {bins counts : List K} (hl : bins.length = counts.length + 1) (n : Nat) (t s e : K) :
    shiftError bins counts n t s = some e ↔ ShiftedErr bins counts n t s e := by
  have hsum : ∀ q : List K, q.length = bins.length →
      (List.zipWith (fun d c => d ^ 2 * c) (List.zipWith (fun a b => a - (b + s)) q bins).dropLast counts).sum =
        ∑ j ∈ Finset.range counts.length, counts.getD j 0 * ((bins.getD j 0 + s) - q.getD j 0) ^ 2 := by
    intro q hq
    rw [sum_getD_range]
    have hlen : (List.zipWith (fun d c => d ^ 2 * c) (List.zipWith (fun a b => a - (b + s)) q bins).dropLast
        counts).length = counts.length := by simp; omega
    rw [hlen]
    refine Finset.sum_congr rfl fun j hj => ?_
    have hj := Finset.mem_range.mp hj
    have h1 : j < bins.length := by omega
    have h2 : j < q.length := by omega
    rw [List.getD_eq_getElem _ _ (by rw [hlen]; exact hj), List.getElem_zipWith, List.getElem_dropLast,
      List.getElem_zipWith, List.getD_eq_getElem _ _ hj, List.getD_eq_getElem _ _ h1, List.getD_eq_getElem _ _ h2]
    ring
  unfold shiftError ShiftedErr
  constructor
  · intro h
    rcases hm : (bins.map (fun b => b + s)).mapM (fun b => MCT.Quant.quantizeTensor b t n false) with _ | q
    · rw [hm] at h; exact absurd h (by simp)
    · rw [hm] at h
      rw [MCT.Common.mapM_some_iff] at hm
      have hq : q.length = bins.length := by have := hm.length_eq; simpa using this.symm
      refine ⟨fun j => q.getD j 0, fun j b hb => ?_, ?_⟩
      · obtain ⟨hj, rfl⟩ := List.getElem?_eq_some_iff.mp hb
        have := List.Forall₂.get hm (i := j) (by simpa using hj) (by omega)
        simp only [List.get_eq_getElem, List.getElem_map] at this
        rw [this]
        dsimp only
        rw [List.getD_eq_getElem _ _ (by omega)]
      · rw [← hsum q hq]
        simpa using h.symm
  · rintro ⟨q, hq, rfl⟩
    have hm : (bins.map (fun b => b + s)).mapM (fun b => MCT.Quant.quantizeTensor b t n false) =
        some ((List.range bins.length).map q) := by
      rw [MCT.Common.mapM_some_iff]
      rw [List.forall₂_iff_get]
      refine ⟨by simp, fun i h1 h2 => ?_⟩
      simp only [List.get_eq_getElem, List.getElem_map, List.getElem_range]
      have hi : i < bins.length := by simpa using h1
      exact hq i _ (List.getElem?_eq_getElem hi)
    rw [hm]
    have := hsum ((List.range bins.length).map q) (by simp)
    simp only [Option.pure_def, Option.bind_eq_bind, Option.bind_some, Option.some.injEq]
    rw [this]
    congr 1
    refine Finset.sum_congr rfl fun j hj => ?_
    have hj := Finset.mem_range.mp hj
    rw [List.getD_eq_getElem (l := (List.range bins.length).map q) _ (by simp; omega)]
    simp

/-- The loop that keeps the first pair of least error. -/
theorem foldl_least {α : Type} (err : α → Option K) :
    ∀ (l : List α) (acc : Option (K × α)) (e : K) (p : α),
      l.foldl (fun best p => shiftKeep best p (err p)) acc = some (e, p) →
      ((acc = some (e, p)) ∨ (p ∈ l ∧ err p = some e)) ∧ (∀ b, acc = some b → e ≤ b.1) ∧
        ∀ x ∈ l, ∀ e', err x = some e' → e ≤ e'
  | [], acc, e, p, h => by
    refine ⟨Or.inl h, fun b hb => ?_, by simp⟩
    rw [List.foldl_nil] at h
    rw [h] at hb; injection hb with hb; rw [← hb]
  | x :: l, acc, e, p, h => by
    rw [List.foldl_cons] at h
    obtain ⟨h1, h2, h3⟩ := foldl_least err l _ e p h
    rcases hx : err x with _ | ex
    · rw [hx] at h1 h2
      simp only [shiftKeep] at h1 h2
      refine ⟨?_, h2, ?_⟩
      · rcases h1 with h1 | ⟨h1, h4⟩
        · exact Or.inl h1
        · exact Or.inr ⟨List.mem_cons_of_mem _ h1, h4⟩
      · intro y hy e' he'
        rcases List.mem_cons.mp hy with rfl | hy
        · rw [hx] at he'; cases he'
        · exact h3 y hy e' he'
    · rcases acc with _ | b
      · rw [hx] at h1 h2
        simp only [shiftKeep] at h1 h2
        refine ⟨Or.inr ?_, fun b hb => (by cases hb), ?_⟩
        · rcases h1 with h1 | ⟨h1, h4⟩
          · simp only [Option.some.injEq, Prod.mk.injEq] at h1
            rw [← h1.1, ← h1.2]
            exact ⟨List.mem_cons_self .., hx⟩
          · exact ⟨List.mem_cons_of_mem _ h1, h4⟩
        · intro y hy e' he'
          rcases List.mem_cons.mp hy with rfl | hy
          · rw [hx] at he'; injection he' with he'; rw [← he']; exact h2 _ rfl
          · exact h3 y hy e' he'
      · rw [hx] at h1 h2
        simp only [shiftKeep] at h1 h2
        by_cases hlt : ex < b.1
        · rw [if_pos hlt] at h1 h2
          refine ⟨Or.inr ?_, fun b' hb => ?_, ?_⟩
          · rcases h1 with h1 | ⟨h1, h4⟩
            · simp only [Option.some.injEq, Prod.mk.injEq] at h1
              rw [← h1.1, ← h1.2]
              exact ⟨List.mem_cons_self .., hx⟩
            · exact ⟨List.mem_cons_of_mem _ h1, h4⟩
          · injection hb with hb; rw [← hb]; exact le_trans (h2 _ rfl) hlt.le
          · intro y hy e' he'
            rcases List.mem_cons.mp hy with rfl | hy
            · rw [hx] at he'; injection he' with he'; rw [← he']; exact h2 _ rfl
            · exact h3 y hy e' he'
        · rw [if_neg hlt] at h1 h2
          refine ⟨?_, h2, ?_⟩
          · rcases h1 with h1 | ⟨h1, h4⟩
            · exact Or.inl h1
            · exact Or.inr ⟨List.mem_cons_of_mem _ h1, h4⟩
          · intro y hy e' he'
            rcases List.mem_cons.mp hy with rfl | hy
            · rw [hx] at he'; injection he' with he'; rw [← he']; exact le_trans (h2 _ rfl) (not_lt.mp hlt)
            · exact h3 y hy e' he'

/-- **C37 (parameter search).**  The search chooses the threshold or twice the threshold, and one of the `2^n` quantized
points below it as shift, with the least error of the quantized histogram among all these pairs. -/
theorem C37_search (bins counts : List K) (hl : bins.length = counts.length + 1) (n : Nat) (t t' s : K)
    (h : shiftSearch bins counts n t = some (t', s)) :
    (t' = t ∨ t' = 2 * t) ∧ (∃ i : Nat, i < 2 ^ n ∧ s = (i : K) * (t' / 2 ^ n)) ∧
    ∃ e, ShiftedErr bins counts n t' s e ∧ ∀ t'' : K, t'' = t ∨ t'' = 2 * t → ∀ i : Nat, i < 2 ^ n → ∀ e',
      ShiftedErr bins counts n t'' ((i : K) * (t'' / 2 ^ n)) e' → e ≤ e' := by
  unfold shiftSearch at h
  dsimp only at h
  obtain ⟨⟨e, p⟩, hf, hp⟩ := Option.map_eq_some_iff.mp h
  have hp : p = (t', s) := hp
  subst hp
  have hmem : ∀ (a b : K), (a, b) ∈ [t, 2 * t].flatMap (fun t' => (List.range (2 ^ n)).map (fun i : Nat =>
      (t', (i : K) * (t' / 2 ^ n)))) ↔ (a = t ∨ a = 2 * t) ∧ ∃ i : Nat, i < 2 ^ n ∧ b = (i : K) * (a / 2 ^ n) := by
    intro a b
    rw [List.mem_flatMap]
    constructor
    · rintro ⟨c, hc, hab⟩
      obtain ⟨i, hi, he⟩ := List.mem_map.mp hab
      simp only [Prod.mk.injEq] at he
      obtain ⟨rfl, rfl⟩ := he
      exact ⟨by simpa using hc, i, List.mem_range.mp hi, rfl⟩
    · rintro ⟨ha, i, hi, rfl⟩
      exact ⟨a, by simpa using ha, List.mem_map.mpr ⟨i, List.mem_range.mpr hi, rfl⟩⟩
  obtain ⟨h1, _, h3⟩ := foldl_least (fun p : K × K => shiftError bins counts n p.1 p.2) _ none e (t', s) hf
  rcases h1 with h1 | ⟨h1, h2⟩
  · cases h1
  · obtain ⟨h5, h6⟩ := (hmem t' s).mp h1
    refine ⟨h5, h6, e, (shiftError_iff hl n t' s e).mp h2, fun t'' ht i hi e' he' => ?_⟩
    exact h3 _ ((hmem _ _).mpr ⟨ht, i, hi, rfl⟩) e' ((shiftError_iff hl n _ _ e').mpr he')

/-- A histogram with a result. -/
example : shiftSearch [-1, 31, 32] [1, 100] 5 (32 : ℚ) = some (32, 0) := C37_search_violated.2

end Search

/-! ### The model -/

section Model
variable {K P : Type*} [Field K] {N : Type*} [DecidableEq N]

/-- **C37**, the model without padding, as far as it holds: on every graph, for a non-linear layer `a`
followed by bypass layers and a linear layer, each the only consumer of the one before, the shift layer
is inserted after `a` and the model computes the same function. Missing: the cases of the `_violated`
theorems, and bypass layers that are model outputs (`C37_output_violated`). -/
theorem C37_model_partial {g : MCT.Graph.Gr N} (wf : WellFormed g) {a b add : N} {mids : List N}
    (hchain : Chain g (a :: (mids ++ [b]))) (hfirst : ∀ e ∈ edgesFrom g a, e.si = 0)
    (hout : ∀ n ∈ mids, ¬ IsOutput g n) (hadd : add ∉ g.nodes)
    {c c' : Conv K} (hv : c.Valid) {s : K} (h : correctBias c s = some c')
    (src : P → Nat → Option P) (hin : ∀ p, ∀ t < c.kh * c.kw, (src p t).isSome = true)
    {I I' : Interp N (Nat → P → K)}
    (hb : ∀ args k, I b args k = channels c.cout (c.out src (args.headD 0)))
    (hb' : ∀ args k, I' b args k = channels c.cout (c'.out src (args.headD 0)))
    (hm : ∀ n ∈ mids, ∃ f : (Nat → P → K) → Nat → P → K, ShiftEquivariant s f ∧
      ∀ args k, I n args k = f (args.headD 0))
    (ha' : ∀ args k, I' add args k = shifted s (args.headD 0))
    (hrest : ∀ n ∈ g.nodes, n ≠ b → I' n = I n) :
    ∃ g', MCT.Graph.insertAfter g add a = some g' ∧ WellFormed g' ∧ SameFunction g I g' I' := by
  classical
  obtain ⟨y, L', hL⟩ : ∃ y L', mids ++ [b] = y :: L' := by
    cases mids with
    | nil => exact ⟨b, [], rfl⟩
    | cons y l => exact ⟨y, l ++ [b], rfl⟩
  have hch : Chain g (a :: y :: L') := hL ▸ hchain
  obtain ⟨⟨e, h1, h2⟩, h3⟩ := hch
  have hes := List.mem_filter.1 (show e ∈ edgesFrom g a by rw [h1]; simp)
  have hed := List.mem_filter.1 (show e ∈ edgesInto g y by rw [h2]; simp)
  have hsrc : e.src = a := by simpa using hes.2
  have hdst : e.dst = y := by simpa using hed.2
  have hbet : g.edges.filter (fun e => decide (e.src = a) && decide (e.dst = y)) = [e] := by
    rw [← List.filter_filter (p := fun e : MCT.Graph.Edge N => decide (e.src = a))
      (q := fun e => decide (e.dst = y))]
    rw [show g.edges.filter _ = [e] from h2]
    simp [hsrc]
  obtain ⟨g', R, hg', M⟩ := MCT.Graph.insertBetween_result wf hbet hadd
  have wf' := M.wf wf hadd
  refine ⟨g', by rw [MCT.Graph.C68_insert_after h1, hdst]; exact hg', wf', ?_⟩
  -- the inserted layer as the identity
  let J : Interp N (Nat → P → K) := fun n => if n = add then fun args _ => args.headD 0 else I n
  have hJ : ∀ n, n ≠ add → J n = I n := fun n hn => if_neg hn
  have s1 : SameFunction g I g' J :=
    M.same_id wf hadd (hfirst e (by rw [h1]; simp))
      (fun m hm => hJ m (fun hc => hadd (hc ▸ hm))) (fun x => by simp [J])
  have hch' : Chain g' (add :: (mids ++ [b])) := by
    have := M.chain wf hadd [] (L' := L') (by exact (hL ▸ hchain : Chain g (a :: y :: L')))
    rw [hL]
    exact MCT.Graph.chain_drop [a] this
  obtain ⟨rank, hr⟩ := wf'.acyclic
  have hrk := MCT.Graph.chain_rank hr _ _ hch'
  obtain ⟨f1, f2, f3⟩ := MCT.Graph.chain_facts hr mids add b hch'
  have hbadd : b ≠ add := fun hc => by have := hrk b (by simp); rw [hc] at this; omega
  -- what is not in the graph does not matter: use an interpretation that differs only where needed
  let J' : Interp N (Nat → P → K) := fun n => if n = add then I' add else if n = b then I' b else I n
  have s2 : SameFunction g' J g' J' := by
    apply MCT.Graph.chain_same wf' hch' _ _ (shifted s)
    · intro args k
      simp only [J', J, if_true, ha']
    · intro n hn x k
      have hna : n ≠ add := fun hc => by
        have := hrk n (List.mem_append_left _ hn); rw [hc] at this; omega
      have hnb : n ≠ b := by rintro rfl; exact f3 (List.mem_cons_of_mem _ hn)
      obtain ⟨f, hf, he⟩ := hm n hn
      simp only [J', J, hna, hnb, if_false, he]
      exact hf x
    · intro x k
      simp only [J', J, hbadd, if_true, if_false, hb', hb]
      funext o p
      simp only [channels, List.headD_cons]
      split
      · rename_i ho
        exact C37_bias_corrected hv h src x ho p (hin p)
      · rfl
    · intro n hn hnb
      have hna : n ≠ add := fun hc => hn (by simp [hc])
      simp only [J', J, hna, hnb, if_false]
    · intro n hn ⟨k, hk⟩
      rw [M.outputs] at hk
      rcases List.mem_cons.1 hn with rfl | hn
      · exact hadd (wf.outs _ hk)
      · exact hout n hn ⟨k, hk⟩
    · rw [M.inputs]
      exact fun hc => hadd (wf.ins _ hc)
  have s3 : SameFunction g' J' g' I' := by
    apply MCT.Graph.inplace_same wf' (fun _ _ x => x) (fun _ _ _ _ => rfl) (fun _ _ _ => rfl)
    intro n hn _ v k
    have : I' n = J' n := by
      simp only [J']
      rw [M.nodes] at hn
      split
      · rename_i hc; rw [hc]
      · rename_i hc
        split
        · rename_i hc; rw [hc]
        · rename_i hc'
          rcases List.mem_append.1 hn with hn | hn
          · exact hrest n hn hc'
          · exact absurd (List.mem_singleton.1 hn) hc
    simp only [this]
  exact MCT.Graph.same_trans s1 (MCT.Graph.same_trans s2 s3)

/-- **C37**, the model with padding, as far as it holds: as `C37_model_partial`, with a layer that pads
with the shift inserted in front of the linear layer, whose own padding is taken away. -/
theorem C37_model_padded_partial {g : MCT.Graph.Gr N} (wf : WellFormed g) {a b add pad : N} {mids : List N}
    (hchain : Chain g (a :: (mids ++ [b]))) (hfirst : ∀ e ∈ edgesFrom g a, e.si = 0)
    (hlast : ∀ e ∈ edgesInto g b, e.si = 0)
    (hout : ∀ n ∈ mids, ¬ IsOutput g n) (hadd : add ∉ g.nodes) (hpad : pad ∉ g.nodes) (hap : add ≠ pad)
    {c c' : Conv K} (hv : c.Valid) {s : K} (h : correctBias c s = some c')
    (src src' : P → Nat → Option P) (orig : P → Option P)
    (hin : ∀ p, ∀ t < c.kh * c.kw, ∃ q, src' p t = some q ∧ orig q = src p t)
    {I I' : Interp N (Nat → P → K)}
    (hb : ∀ args k, I b args k = channels c.cout (c.out src (args.headD 0)))
    (hb' : ∀ args k, I' b args k = channels c.cout (c'.out src' (args.headD 0)))
    (hm : ∀ n ∈ mids, ∃ f : (Nat → P → K) → Nat → P → K, ShiftEquivariant s f ∧
      ∀ args k, I n args k = f (args.headD 0))
    (ha' : ∀ args k, I' add args k = shifted s (args.headD 0))
    (hp' : ∀ args k, I' pad args k = constPad orig s (args.headD 0))
    (hrest : ∀ n ∈ g.nodes, n ≠ b → I' n = I n) :
    ∃ g1 g2, MCT.Graph.insertAfter g add a = some g1 ∧ MCT.Graph.insertBefore g1 pad b = some g2 ∧
      WellFormed g2 ∧ SameFunction g I g2 I' := by
  classical
  obtain ⟨y, L', hL⟩ : ∃ y L', mids ++ [b] = y :: L' := by
    cases mids with
    | nil => exact ⟨b, [], rfl⟩
    | cons y l => exact ⟨y, l ++ [b], rfl⟩
  have hch : Chain g (a :: y :: L') := hL ▸ hchain
  obtain ⟨⟨e, h1, h2⟩, h3⟩ := hch
  have hes := List.mem_filter.1 (show e ∈ edgesFrom g a by rw [h1]; simp)
  have hed := List.mem_filter.1 (show e ∈ edgesInto g y by rw [h2]; simp)
  have hsrc : e.src = a := by simpa using hes.2
  have hdst : e.dst = y := by simpa using hed.2
  have hbet : g.edges.filter (fun e => decide (e.src = a) && decide (e.dst = y)) = [e] := by
    rw [← List.filter_filter (p := fun e : MCT.Graph.Edge N => decide (e.src = a))
      (q := fun e => decide (e.dst = y))]
    rw [show g.edges.filter _ = [e] from h2]
    simp [hsrc]
  obtain ⟨g', R, hg', M⟩ := MCT.Graph.insertBetween_result wf hbet hadd
  have wf' := M.wf wf hadd
  have hch' : Chain g' (add :: (mids ++ [b])) := by
    have := M.chain wf hadd [] (L' := L') (by exact (hL ▸ hchain : Chain g (a :: y :: L')))
    rw [hL]
    exact MCT.Graph.chain_drop [a] this
  -- the node in front of the linear layer
  obtain ⟨L, x, hLx⟩ : ∃ L x, add :: mids = L ++ [x] := by
    rcases List.eq_nil_or_concat (add :: mids) with h0 | ⟨L, x, h0⟩
    · simp at h0
    · exact ⟨L, x, by simpa using h0⟩
  have hch2 : Chain g' (L ++ x :: b :: []) := by
    have : add :: (mids ++ [b]) = L ++ x :: b :: [] := by
      rw [← List.cons_append, hLx]; simp
    rw [← this]; exact hch'
  obtain ⟨⟨e2, k1, k2⟩, -⟩ := MCT.Graph.chain_drop L hch2
  have hes2 := List.mem_filter.1 (show e2 ∈ edgesFrom g' x by rw [k1]; simp)
  have hed2 := List.mem_filter.1 (show e2 ∈ edgesInto g' b by rw [k2]; simp)
  have hsrc2 : e2.src = x := by simpa using hes2.2
  have hdst2 : e2.dst = b := by simpa using hed2.2
  have hbet2 : g'.edges.filter (fun e => decide (e.src = x) && decide (e.dst = b)) = [e2] := by
    rw [← List.filter_filter (p := fun e : MCT.Graph.Edge N => decide (e.src = x))
      (q := fun e => decide (e.dst = b))]
    rw [show g'.edges.filter _ = [e2] from k2]
    simp [hsrc2]
  have hpad' : pad ∉ g'.nodes := by
    rw [M.nodes]
    intro hc
    rcases List.mem_append.1 hc with hc | hc
    · exact hpad hc
    · exact hap (List.mem_singleton.1 hc).symm
  have hsi2 : e2.si = 0 := by
    have hin2 : e2 ∈ edgesInto g' b := by rw [k2]; simp
    have p := M.edges.mem_iff.1 (List.mem_filter.1 hin2).1
    rcases List.mem_cons.1 p with rfl | p
    · exact hfirst e (by rw [h1]; simp)
    · rcases List.mem_cons.1 p with rfl | p
      · exact hfirst e (by rw [h1]; simp)
      · apply hlast
        exact List.mem_filter.2 ⟨(MCT.Graph.perm_tail M.split).2 e2 p, by simp [hdst2]⟩
  obtain ⟨g2, R2, hg2, M2⟩ := MCT.Graph.insertBetween_result wf' hbet2 hpad'
  have wf2 := M2.wf wf' hpad'
  refine ⟨g', g2, by rw [MCT.Graph.C68_insert_after h1, hdst]; exact hg',
    by rw [MCT.Graph.C68_insert_before k2, hsrc2]; exact hg2, wf2, ?_⟩
  have hc2 : Chain g2 (add :: ((mids ++ [pad]) ++ [b])) := by
    have := M2.chain wf' hpad' L (L' := []) hch2
    have e : add :: ((mids ++ [pad]) ++ [b]) = L ++ x :: pad :: b :: [] := by
      rw [List.append_assoc, ← List.cons_append, hLx]; simp
    rw [e]; exact this
  have hc3 : Chain g2 (pad :: ([] ++ [b])) := by
    have e : add :: ((mids ++ [pad]) ++ [b]) = (add :: mids) ++ (pad :: ([] ++ [b])) := by simp
    rw [e] at hc2
    exact MCT.Graph.chain_drop _ hc2
  obtain ⟨rank, hr⟩ := wf2.acyclic
  have hrk := MCT.Graph.chain_rank hr _ _ hc2
  obtain ⟨f1, f2, f3⟩ := MCT.Graph.chain_facts hr _ add b hc2
  have hbadd : b ≠ add := fun hc => f3 (by simp [hc])
  have hbpad : b ≠ pad := fun hc => f3 (by simp [hc])
  have hmem : ∀ n ∈ mids, n ∈ g.nodes := by
    intro n hn
    obtain ⟨rank0, hr0⟩ := wf.acyclic
    obtain ⟨-, e0, he0, -⟩ := (MCT.Graph.chain_facts hr0 mids a b hchain).2.1 n (List.mem_append_left _ hn)
    have he0 := List.mem_filter.1 (show e0 ∈ edgesInto g n by rw [he0]; simp)
    have : e0.dst = n := by simpa using he0.2
    exact this ▸ wf.dst e0 he0.1
  -- both new layers as identities
  let J : Interp N (Nat → P → K) :=
    fun n => if n = add then fun args _ => args.headD 0 else if n = pad then fun args _ => args.headD 0 else I n
  have hJ : ∀ n, n ≠ add → n ≠ pad → J n = I n := fun n hn hn' => by simp [J, hn, hn']
  have s1 : SameFunction g I g' J :=
    M.same_id wf hadd (hfirst e (by rw [h1]; simp))
      (fun m hm => hJ m (fun hc => hadd (hc ▸ hm)) (fun hc => hpad (hc ▸ hm))) (fun x => by simp [J])
  have s2 : SameFunction g' J g2 J :=
    M2.same_id wf' hpad' hsi2 (fun m hm => rfl) (fun x => by simp [J, hap.symm])
  -- the linear layer pads with the shift
  let J1 : Interp N (Nat → P → K) := fun n => if n = add then I' add
    else if n = b then fun args _ => channels c.cout (c'.out src' (constPad orig s (args.headD 0))) else J n
  have s3 : SameFunction g2 J g2 J1 := by
    apply MCT.Graph.chain_same wf2 hc2 _ _ (shifted s)
    · intro args k
      simp only [J1, J, if_true, ha']
    · intro n hn x k
      have hna : n ≠ add := fun hc => by
        have := hrk n (List.mem_append_left _ hn); rw [hc] at this; omega
      have hnb : n ≠ b := by rintro rfl; exact f3 (List.mem_cons_of_mem _ hn)
      rcases List.mem_append.1 hn with hn | hn
      · have hnp : n ≠ pad := fun hc => hpad (hc ▸ hmem n hn)
        obtain ⟨f, hf, he⟩ := hm n hn
        simp only [J1, J, hna, hnb, hnp, if_false, he]
        exact hf x
      · obtain rfl := List.mem_singleton.1 hn
        simp only [J1, J, hna, hnb, if_false, if_true, List.headD_cons]
    · intro x k
      simp only [J1, J, hbadd, hbpad, if_true, if_false, hb]
      funext o p
      simp only [channels, List.headD_cons]
      split
      · rename_i ho
        exact C37_padded hv h src src' orig x ho p (hin p)
      · rfl
    · intro n hn hnb
      have hna : n ≠ add := fun hc => hn (by simp [hc])
      simp only [J1, hna, hnb, if_false]
    · intro n hn ⟨k, hk⟩
      rw [M2.outputs, M.outputs] at hk
      rcases List.mem_cons.1 hn with rfl | hn
      · exact hadd (wf.outs _ hk)
      · rcases List.mem_append.1 hn with hn | hn
        · exact hout n hn ⟨k, hk⟩
        · obtain rfl := List.mem_singleton.1 hn
          exact hpad (wf.outs _ hk)
    · rw [M2.inputs, M.inputs]
      exact fun hc => hadd (wf.ins _ hc)
  -- the padding is moved to its own layer
  let J2 : Interp N (Nat → P → K) := fun n => if n = pad then I' pad else if n = b then I' b else J1 n
  have s4 : SameFunction g2 J1 g2 J2 := by
    apply MCT.Graph.chain_same wf2 hc3 _ _ (constPad orig s)
    · intro args k
      simp only [J2, J1, J, if_true, hap.symm, hbpad.symm, if_false, hp']
    · simp
    · intro x k
      simp only [J2, J1, hbpad, hbadd, if_true, if_false, hb', List.headD_cons]
    · intro n hn hnb
      have hna : n ≠ pad := fun hc => hn (by simp [hc])
      simp only [J2, hna, hnb, if_false]
    · intro n hn ⟨k, hk⟩
      rw [M2.outputs, M.outputs] at hk
      obtain rfl := List.mem_singleton.1 hn
      exact hpad (wf.outs _ hk)
    · rw [M2.inputs, M.inputs]
      exact fun hc => hpad (wf.ins _ hc)
  have s5 : SameFunction g2 J2 g2 I' := by
    apply MCT.Graph.inplace_same wf2 (fun _ _ x => x) (fun _ _ _ _ => rfl) (fun _ _ _ => rfl)
    intro n hn _ v k
    have : I' n = J2 n := by
      rw [M2.nodes, M.nodes] at hn
      by_cases hnp : n = pad
      · simp only [J2, hnp, if_true]
      · by_cases hnb : n = b
        · simp only [J2, hnb, hbpad, if_true, if_false]
        · by_cases hna : n = add
          · simp only [J2, J1, hna, hap, hbadd.symm, if_true, if_false]
          · have : n ∈ g.nodes := by
              simp only [List.mem_append, List.mem_singleton] at hn
              tauto
            simp only [J2, J1, J, hna, hnb, hnp, if_false]
            exact hrest n this hnb
    simp only [this]
  exact MCT.Graph.same_trans s1 (MCT.Graph.same_trans s2 (MCT.Graph.same_trans s3
    (MCT.Graph.same_trans s4 s5)))

/-- A graph with such a chain: input 0, non-linear layer 1, bypass layer 2, linear layer 3. The
non-linear layer may itself be a model output. -/
example : WellFormed (⟨[0, 1, 2, 3], [⟨0, 1, 0, 0⟩, ⟨1, 2, 0, 0⟩, ⟨2, 3, 0, 0⟩], [0],
      [(3, 0), (1, 0)]⟩ : MCT.Graph.Gr Nat) ∧
    Chain (⟨[0, 1, 2, 3], [⟨0, 1, 0, 0⟩, ⟨1, 2, 0, 0⟩, ⟨2, 3, 0, 0⟩], [0],
      [(3, 0), (1, 0)]⟩ : MCT.Graph.Gr Nat) (1 :: ([2] ++ [3])) ∧
    ¬ IsOutput (⟨[0, 1, 2, 3], [⟨0, 1, 0, 0⟩, ⟨1, 2, 0, 0⟩, ⟨2, 3, 0, 0⟩], [0],
      [(3, 0), (1, 0)]⟩ : MCT.Graph.Gr Nat) 2 :=
  ⟨MCT.Graph.wf_of_check (rank := id) (by decide), ⟨⟨_, rfl, rfl⟩, ⟨_, rfl, rfl⟩, trivial⟩, by
    rintro ⟨k, hk⟩
    simp at hk⟩

end Model

/-- **C37 is violated** when a bypass layer is a model output: the search for the linear layer looks at
the number of consumers only, and the output of the model is shifted. Numbers for tensors: 9 adds 5,
layer 3 subtracts 5 after the correction. -/
theorem C37_output_violated :
    ∃ (g g' : MCT.Graph.Gr Nat) (I I' : Interp Nat Int), WellFormed g ∧ Chain g [1, 2, 3] ∧
      MCT.Graph.insertAfter g 9 1 = some g' ∧ (∀ x k, I 2 [x] k = x ∧ I' 2 [x] k = x) ∧
      (∀ x k, I' 9 [x] k = x + 5) ∧ (∀ x k, I' 3 [x + 5] k = I 3 [x] k) ∧ ¬ SameFunction g I g' I' := by
  refine ⟨⟨[0, 1, 2, 3], [⟨0, 1, 0, 0⟩, ⟨1, 2, 0, 0⟩, ⟨2, 3, 0, 0⟩], [0], [(3, 0), (2, 0)]⟩,
    ⟨[0, 1, 2, 3, 9], [⟨0, 1, 0, 0⟩, ⟨2, 3, 0, 0⟩, ⟨1, 9, 0, 0⟩, ⟨9, 2, 0, 0⟩], [0], [(3, 0), (2, 0)]⟩,
    fun _ args _ => args.headD 0,
    fun n args _ => if n = 9 then args.headD 0 + 5 else if n = 3 then args.headD 0 - 5 else args.headD 0,
    MCT.Graph.wf_of_check (rank := id) (by decide), ⟨⟨_, rfl, rfl⟩, ⟨_, rfl, rfl⟩, trivial⟩, by decide,
    by simp, by simp, by simp, ?_⟩
  refine MCT.Graph.not_same (rank := id) (rank' := fun n => if n = 9 then 2 else if n ≤ 1 then n else n + 1)
    (fun _ => 0) 10 (by decide) (by decide) (by decide) (by decide) ?_
  simp [MCT.Graph.run, MCT.Graph.evalAt, arguments, incoming]

end MCT.Subst
