/-
C32 and C33: the batch normalisation foldings compute the same function.
-/
import Verif.Subst.Lemmas
import Verif.Graph.PropsSubst
import Mathlib.Data.Rat.Defs
import Mathlib.Algebra.Order.Ring.Rat

namespace MCT.Subst
open MCT.SubstSpec MCT.GraphSpec Finset

set_option linter.unusedSectionVars false
set_option linter.unusedVariables false

variable {K P : Type*} [Field K]

/-! ### C32: folding a batch normalisation into the convolution before it -/

/-- **C32**, the layer, as far as it holds: the folded convolution computes the batch normalisation
of the original one, for every input, position, geometry (strides, padding, dilation), kernel size,
grouping, for all kinds of convolution of both frameworks — except PyTorch transposed convolutions
with several groups of several input channels, for which see `C32_grouped_transpose_violated`. -/
theorem C32_folded_layer_partial {c : Conv K} (hv : c.Valid)
    (hkind : c.kind = .torchTranspose → c.groups = 1 ∨ c.groups = c.cin)
    (sqrt : K → K) (n : BN K) (src : P → Nat → Option P) (X : Nat → P → K) {o : Nat}
    (ho : o < c.cout) (p : P) :
    (foldBN sqrt c n).out src X o p = n.out sqrt (c.out src X) o p :=
  foldBN_out hv hkind sqrt n src X ho p

/-- The output of a layer with `cout` channels as a tensor: no other channels. -/
def channels (cout : Nat) (f : Nat → P → K) : Nat → P → K := fun o p => if o < cout then f o p else 0

/-- **C32**, the model, as far as it holds: on every graph, folding the only consumer of a
convolution, a batch normalisation, leaves the function of the model unchanged. The interpretation
gives the convolution `a`, the batch normalisation `b` and the new layer `c'` their meaning and is
arbitrary on all other layers. -/
theorem C32_model_partial {N : Type*} [DecidableEq N] {g : MCT.Graph.Gr N} (wf : WellFormed g)
    {a b c' : N} {e : MCT.Graph.Edge N} (hout : edgesFrom g a = [e]) (hin : edgesInto g b = [e])
    (hc : c' ∉ g.nodes) (hao : ¬ IsOutput g a) (hai : a ∉ g.inputs)
    {c : Conv K} (hv : c.Valid) (hkind : c.kind = .torchTranspose → c.groups = 1 ∨ c.groups = c.cin)
    (sqrt : K → K) (n : BN K) (src : P → Nat → Option P)
    {I : Interp N (Nat → P → K)}
    (ha : ∀ args k, I a args k = channels c.cout (c.out src (args.headD 0)))
    (hb : ∀ args k, I b args k = channels c.cout (n.out sqrt (args.headD 0)))
    (hcc : ∀ args k, I c' args k = channels c.cout ((foldBN sqrt c n).out src (args.headD 0))) :
    ∃ g', MCT.Graph.mergePair g a b c' = some g' ∧ WellFormed g' ∧ SameFunction g I g' I := by
  obtain ⟨g', h, hw, hs, _⟩ := MCT.Graph.C32_merge_two_layers_partial wf hout hin hc hao hai (I := I) (by
    intro args k
    rw [hcc, hb, List.headD_cons, ha]
    funext o p
    simp only [channels]
    by_cases ho : o < c.cout
    · simp only [ho, if_true]
      rw [C32_folded_layer_partial hv hkind sqrt n src _ ho p]
      simp only [BN.out, channels, ho, if_true]
    · simp only [ho, if_false])
  exact ⟨g', h, hw, hs⟩

/-- A grouped Keras convolution with a 2x1 kernel, without a bias, meets the hypotheses, and so do a
depthwise one with multiplier 2 and a PyTorch transposed depthwise one. -/
def keras22 : Conv ℚ := ⟨.kerasConv, 4, 2, 2, 2, 1, fun j => j, none⟩
def depthwise2 : Conv ℚ := ⟨.kerasDepthwise, 2, 4, 1, 1, 1, fun j => j + 1, some (fun o => o)⟩
def torchDwT : Conv ℚ := ⟨.torchTranspose, 2, 4, 2, 1, 1, fun j => j + 1, none⟩

example : keras22.Valid ∧ depthwise2.Valid ∧ torchDwT.Valid ∧ torchDwT.groups = torchDwT.cin := by
  refine ⟨⟨?_, ?_, ?_, ?_, ?_, ?_, ?_⟩, ⟨?_, ?_, ?_, ?_, ?_, ?_, ?_⟩, ⟨?_, ?_, ?_, ?_, ?_, ?_, ?_⟩,
    ?_⟩ <;> decide

def someBN : BN ℚ := ⟨some (fun o => o + 2), some (fun _ => 1), fun _ => 3, fun _ => 1, 0⟩

/-- Output channel 1 of the grouped convolution reads channels 2 and 3 only. -/
example : keras22.out (fun p t => some (p + t)) (fun i p => i + 10 * p) 1 (0 : Nat) =
    1 * 2 + 3 * 3 + 5 * 12 + 7 * 13 := by decide +kernel
example : (foldBN id keras22 someBN).out (fun p t => some (p + t)) (fun i p => i + 10 * p) 1 (0 : Nat)
    = (162 - 3) * 3 + 1 := by decide +kernel

/-- A PyTorch transposed convolution with two groups of two input channels each and one output
channel per group; every weight is 1. -/
def groupedTranspose : Conv ℚ := ⟨.torchTranspose, 4, 2, 2, 1, 1, fun _ => 1, none⟩

/-- **C32 is violated** for PyTorch transposed convolutions with more than one group and more than one
input channel per group: the scales of the groups are mixed up. -/
theorem C32_grouped_transpose_violated :
    groupedTranspose.Valid ∧ ∃ (n : BN ℚ) (X : Nat → Nat → ℚ),
      (foldBN id groupedTranspose n).out (fun p _ => some p) X 0 0 ≠
        n.out id (groupedTranspose.out (fun p _ => some p) X) 0 0 := by
  refine ⟨⟨?_, ?_, ?_, ?_, ?_, ?_, ?_⟩,
    ⟨some (fun o => if o = 0 then 1 else 2), none, fun _ => 0, fun _ => 1, 0⟩, fun _ _ => 1, ?_⟩ <;>
    decide +kernel

/-! ### C33: folding a batch normalisation into the convolution after it -/

/-- **C33**, the layer, as far as it holds: when a batch normalisation is folded into the 1x1
convolution after it, the new layer computes the convolution of the batch normalisation, provided
that the convolution reads a position of its input at every output position (no padding, no strided
transposed convolution) and is not a grouped transposed one. Both are necessary: see the violations
below. -/
theorem C33_folded_layer_partial {c c' : Conv K} (hv : c.Valid)
    (hkind : c.kind = .torchTranspose → c.groups = 1) (sqrt : K → K) (n : BN K)
    (hf : forwardFoldBN sqrt n c = .ok (some c')) (src : P → Nat → Option P)
    (hsrc : ∀ p, (src p 0).isSome) (X : Nat → P → K) {o : Nat} (ho : o < c.cout) (p : P) :
    c'.out src X o p = c.out src (n.out sqrt X) o p :=
  forwardFold_out hv hkind sqrt n hf src hsrc X ho p

/-- **C33**: the folding is applied to every 1x1 convolution of Keras without groups, to depthwise
ones, and to PyTorch convolutions with one group, or depthwise with as many outputs as inputs. -/
theorem C33_applied {c : Conv K} (sqrt : K → K) (n : BN K) (h1 : c.kh = 1) (h2 : c.kw = 1)
    (hk : (c.kind = .kerasConv ∧ c.groups = 1) ∨ c.kind = .kerasDepthwise ∨ c.kind = .kerasTranspose ∨
      ((c.kind = .torchConv ∨ c.kind = .torchTranspose) ∧ c.groups = 1) ∨
      (c.kind = .torchConv ∧ c.groups = c.cin ∧ c.cout = c.cin)) :
    ∃ c', forwardFoldBN sqrt n c = .ok (some c') := by
  have hu : isGroupConv c = false ∧ ∀ s f, (forwardUpdate c s f).isSome := by
    rcases hk with ⟨hk, hg⟩ | hk | hk | ⟨hk | hk, hg⟩ | ⟨hk, hg, hcc⟩
    · exact ⟨by simp [isGroupConv, hk, hg], fun s f => by simp [forwardUpdate, hk]⟩
    · exact ⟨by simp [isGroupConv, hk], fun s f => by simp [forwardUpdate, hk]⟩
    · exact ⟨by simp [isGroupConv, hk], fun s f => by simp [forwardUpdate, hk]⟩
    · have h3 : ¬ c.groups > 1 := by omega
      exact ⟨by simp [isGroupConv, hk, hg],
        fun s f => by simp [forwardUpdate, hk, h3]⟩
    · have h3 : ¬ c.groups > 1 := by omega
      exact ⟨by simp [isGroupConv, hk, hg],
        fun s f => by simp [forwardUpdate, hk, h3]⟩
    · refine ⟨by simp [isGroupConv, hk, hg], fun s f => ?_⟩
      by_cases h3 : c.groups > 1
      · simp [forwardUpdate, hk, h3, hcc]
      · simp [forwardUpdate, hk, h3]
  obtain ⟨⟨k, u⟩, h⟩ := Option.isSome_iff_exists.1 (hu.2 (weightsScale sqrt n)
    (fun i => orConst n.beta 0 i - n.mean i * weightsScale sqrt n i))
  refine ⟨{ c with kernel := k, bias := some (fun o => orConst c.bias 0 o + u o) }, ?_⟩
  rw [forwardFoldBN]
  simp only [hu.1, h1, h2, h, Bool.false_eq_true, if_false, and_self, not_true_eq_false]

/-- Grouped convolutions (other than depthwise) and kernels larger than 1x1 are left alone. -/
theorem C33_left_alone {c : Conv K} (sqrt : K → K) (n : BN K)
    (h : (c.kh ≠ 1 ∨ c.kw ≠ 1) ∨ (c.kind = .kerasConv ∧ 1 < c.groups) ∨
      ((c.kind = .torchConv ∨ c.kind = .torchTranspose) ∧ c.groups ≠ 1 ∧ c.groups ≠ c.cin)) :
    forwardFoldBN sqrt n c = .ok none := by
  rw [forwardFoldBN]
  rcases h with h | ⟨hk, hg⟩ | ⟨hk, hg, hg'⟩
  · split
    · rfl
    · rw [if_pos]; tauto
  · rw [if_pos]; simp [isGroupConv, hk, hg]
  · rw [if_pos]
    rcases hk with hk | hk <;> simp [isGroupConv, hk, hg, hg']

/-- The condition on the geometry holds for convolutions without padding, with any stride, at the
output positions such a convolution has (`(n - 1) / stride + 1` of them per axis). -/
theorem C33_no_padding {n stride dil p : Nat} (hs : 0 < stride) (hn : 0 < n)
    (hp : p ≤ (n - 1) / stride) : (convAxis n stride 0 dil p 0).isSome := by
  have : p * stride ≤ n - 1 := (Nat.le_div_iff_mul_le hs).1 hp
  rw [convAxis]
  simp only [Nat.zero_mul, Nat.add_zero, Nat.zero_le, true_and, Nat.sub_zero]
  rw [if_pos (by omega)]; rfl

def torch1x1 : Conv ℚ := ⟨.torchConv, 2, 1, 1, 1, 1, fun j => j + 1, none⟩

example : torch1x1.Valid := by refine ⟨?_, ?_, ?_, ?_, ?_, ?_, ?_⟩ <;> decide

/-- **C33 is violated** for a 1x1 convolution with padding: in the padding the original layer gives
its bias, the folded layer gives the new bias. -/
theorem C33_padding_violated :
    torch1x1.Valid ∧ ∃ c' X, forwardFoldBN id someBN torch1x1 = .ok (some c') ∧
      c'.out (convAxis 3 1 1 1) X 0 0 ≠
        torch1x1.out (convAxis 3 1 1 1) (someBN.out id X) 0 0 := by
  obtain ⟨c', h⟩ := C33_applied (c := torch1x1) id someBN rfl rfl (by
    right; right; right; left; exact ⟨Or.inl rfl, rfl⟩)
  refine ⟨by refine ⟨?_, ?_, ?_, ?_, ?_, ?_, ?_⟩ <;> decide, c', fun _ _ => 0, h, ?_⟩
  have : c' = { torch1x1 with
      kernel := mulAlong [1, 2, 1, 1] 1 torch1x1.kernel (weightsScale id someBN),
      bias := some (fun o => 0 + sumInner 2 (mulAlong [1, 2, 1, 1] 1 torch1x1.kernel
        (fun i => 1 - 3 * weightsScale id someBN i)) o) } := by
    have h' := h
    simp only [forwardFoldBN, isGroupConv, torch1x1, forwardUpdate, kernelShape] at h'
    simp at h'
    rw [← h']
    rfl
  rw [this]
  decide +kernel

/-- **C33 is violated** for a transposed 1x1 convolution with stride 2 (Keras, same for PyTorch):
the positions between the samples get the new bias. -/
theorem C33_strided_transpose_violated :
    ∃ (c c' : Conv ℚ) (X : Nat → Nat → ℚ), c.Valid ∧ c.kind = .kerasTranspose ∧
      forwardFoldBN id someBN c = .ok (some c') ∧
      c'.out (transposeAxis 3 2 0 1) X 0 1 ≠ c.out (transposeAxis 3 2 0 1) (someBN.out id X) 0 1 := by
  refine ⟨⟨.kerasTranspose, 1, 1, 1, 1, 1, fun _ => 1, none⟩,
    ⟨.kerasTranspose, 1, 1, 1, 1, 1,
      mulAlong [1, 1, 1, 1] 3 (fun _ => 1) (weightsScale id someBN),
      some (fun o => 0 + sumInner 1 (mulAlong [1, 1, 1, 1] 3 (fun _ => 1)
        (fun i => 1 - 3 * weightsScale id someBN i)) o)⟩,
    fun _ _ => 0, by refine ⟨?_, ?_, ?_, ?_, ?_, ?_, ?_⟩ <;> decide, rfl, ?_, ?_⟩
  · simp [forwardFoldBN, isGroupConv, forwardUpdate, kernelShape, orConst, someBN]
  · decide +kernel

/-- **C33 is violated** for PyTorch depthwise transposed convolutions: the sum of the bias updates of
all channels is added to every channel. -/
theorem C33_depthwise_transpose_violated :
    ∃ (c c' : Conv ℚ) (X : Nat → Nat → ℚ), c.Valid ∧ c.kind = .torchTranspose ∧
      forwardFoldBN id someBN c = .ok (some c') ∧
      c'.out (fun p _ => some p) X 0 0 ≠ c.out (fun p _ => some p) (someBN.out id X) 0 0 := by
  refine ⟨⟨.torchTranspose, 2, 2, 2, 1, 1, fun _ => 1, none⟩,
    ⟨.torchTranspose, 2, 2, 2, 1, 1,
      mulAlong [2, 1, 1, 1] 0 (fun _ => 1) (weightsScale id someBN),
      some (fun o => 0 + sumOuter 2 1 (mulAlong [2, 1, 1, 1] 0 (fun _ => 1)
        (fun i => 1 - 3 * weightsScale id someBN i)) 0)⟩,
    fun _ _ => 0, by refine ⟨?_, ?_, ?_, ?_, ?_, ?_, ?_⟩ <;> decide, rfl, ?_, ?_⟩
  · simp [forwardFoldBN, isGroupConv, forwardUpdate, kernelShape, orConst, someBN]
  · decide +kernel

/-- **C33 is violated** for PyTorch depthwise convolutions with a multiplier above 1: the folding
fails with an error. -/
theorem C33_multiplier_violated {c : Conv K} (hk : c.kind = .torchConv) (hg : c.groups = c.cin)
    (h1 : 1 < c.groups) (hm : c.cout ≠ c.cin) (hkh : c.kh = 1) (hkw : c.kw = 1) (sqrt : K → K)
    (n : BN K) : forwardFoldBN sqrt n c = .error () := by
  have : isGroupConv c = false := by simp [isGroupConv, hk, hg]
  rw [forwardFoldBN]
  simp only [this, hkh, hkw, forwardUpdate, hk, h1, hm, if_true, if_false,
    Bool.false_eq_true, and_self, not_true_eq_false]

example : ∃ c : Conv ℚ, c.Valid ∧ c.kind = .torchConv ∧ c.groups = c.cin ∧ 1 < c.groups ∧
    c.cout ≠ c.cin ∧ c.kh = 1 ∧ c.kw = 1 :=
  ⟨⟨.torchConv, 2, 4, 2, 1, 1, fun _ => 1, none⟩,
    by refine ⟨?_, ?_, ?_, ?_, ?_, ?_, ?_⟩ <;> decide, rfl, rfl, by decide, by decide, rfl, rfl⟩

/-! ### C33 with a 1x1 depthwise convolution in the place of the batch normalisation -/

theorem depthwise_out {d : Conv K} (hd : depthwiseFoldable d = true) (hv : d.Valid)
    (hm : d.cout = d.cin) {src : P → Nat → Option P} {i : Nat} {q q' : P} (hi : i < d.cin)
    (hs : src q 0 = some q') (X : Nat → P → K) :
    d.out src X i q = X i q' * d.kernel i + valueOr d.bias 0 i := by
  simp only [depthwiseFoldable, Bool.and_eq_true, decide_eq_true_eq] at hd
  obtain ⟨hk, h1, h2⟩ := hd
  have hw : ∀ j, j < d.cin → d.weight i j 0 = if j = i then d.kernel i else 0 := by
    intro j hj
    rcases hkk : d.kind with _ | _ | _ | _ | _ <;> rw [hkk] at hk <;> simp only [] at hk
    · exact absurd hk (by simp)
    · have h11 : d.cout / d.cin = 1 := by rw [hm]; exact Nat.div_self hv.cin
      simp only [Conv.weight, hkk, h11, Nat.div_one, Nat.mod_one, Nat.mul_one, Nat.add_zero,
        Nat.zero_mul, Nat.zero_add]
      split
      · rename_i h; rw [h]
      · rfl
    · exact absurd hk (by simp)
    · simp only [decide_eq_true_eq] at hk
      have h11 : d.cin / d.groups = 1 := by rw [hk]; exact Nat.div_self hv.cin
      have h12 : d.cout / d.groups = 1 := by rw [hk, hm]; exact Nat.div_self hv.cin
      simp only [Conv.weight, hkk, h11, h12, h1, h2, Nat.div_one, Nat.mod_one, Nat.mul_one,
        Nat.add_zero]
    · exact absurd hk (by simp)
  have hT : d.kh * d.kw = 1 := by rw [h1, h2]
  simp only [Conv.out, hT, sum_range_one, hs]
  congr 1
  rw [sum_eq_single i]
  · rw [hw i hi, if_pos rfl, tap, mul_comm]
  · intro j hj hji
    rw [hw j (mem_range.1 hj), if_neg hji, zero_mul]
  · intro h; exact absurd (mem_range.2 hi) h

/-- **C33**, a 1x1 depthwise convolution in front, as far as it holds: with stride 1, multiplier 1 and
no activation function, the folded layer computes the composition. -/
theorem C33_depthwise_front_partial {d c c' : Conv K} (hd : d.Valid) (hm : d.cout = d.cin)
    (hv : c.Valid) (hcd : c.cin = d.cout) (hkind : c.kind = .torchTranspose → c.groups = 1)
    {sqrt : K → K} (hsq : sqrt 1 = 1)
    (hf : forwardFoldDepthwise sqrt d c = .ok (some c')) (dsrc src : P → Nat → Option P)
    (hstride : ∀ p, dsrc p 0 = some p) (hsrc : ∀ p, (src p 0).isSome) (X : Nat → P → K) {o : Nat}
    (ho : o < c.cout) (p : P) :
    c'.out src X o p = c.out src (d.out dsrc X) o p := by
  rw [forwardFoldDepthwise] at hf
  split at hf
  · rename_i hdf
    rw [C33_folded_layer_partial hv hkind sqrt _ hf src hsrc X ho p]
    simp only [Conv.out]
    congr 1
    apply sum_congr rfl
    intro i hi
    apply sum_congr rfl
    intro t _
    congr 1
    cases src p t with
    | none => rfl
    | some q =>
      simp only [tap]
      have hi' : i < d.cin := by rw [mem_range, hcd, hm] at hi; exact hi
      rw [depthwise_out hdf hd hm hi' (hstride q) X]
      simp only [BN.out, depthwiseAsBN, add_zero, hsq, sub_zero, div_one, valueOr, Option.map_some,
        Option.getD_some]
  · simp at hf

def dwFront : Conv ℚ := ⟨.kerasDepthwise, 1, 1, 1, 1, 1, fun _ => 2, none⟩
def afterDw : Conv ℚ := ⟨.kerasConv, 1, 1, 1, 1, 1, fun _ => 1, none⟩
def dwFolded : Conv ℚ :=
  { afterDw with
    kernel := mulAlong [1, 1, 1, 1] 2 afterDw.kernel (weightsScale id (depthwiseAsBN dwFront))
    bias := some (fun o => 0 + sumOuter 1 1 (mulAlong [1, 1, 1, 1] 2 afterDw.kernel
      (fun i => 0 - 0 * weightsScale id (depthwiseAsBN dwFront) i)) o) }

theorem dwFolded_eq : forwardFoldDepthwise id dwFront afterDw = .ok (some dwFolded) := by
  simp [forwardFoldDepthwise, depthwiseFoldable, dwFront, forwardFoldBN, isGroupConv, afterDw,
    forwardUpdate, kernelShape, orConst, depthwiseAsBN, dwFolded]

example : dwFront.Valid ∧ afterDw.Valid ∧ dwFront.cout = dwFront.cin := by
  refine ⟨⟨?_, ?_, ?_, ?_, ?_, ?_, ?_⟩, ⟨?_, ?_, ?_, ?_, ?_, ?_, ?_⟩, ?_⟩ <;> decide

/-- **C33 is violated** for a depthwise 1x1 convolution with stride 2 in front: the stride is lost. -/
theorem C33_depthwise_stride_violated :
    ∃ X : Nat → Nat → ℚ, forwardFoldDepthwise id dwFront afterDw = .ok (some dwFolded) ∧
      dwFolded.out (fun p _ => some p) X 0 1 ≠
        afterDw.out (fun p _ => some p) (dwFront.out (convAxis 4 2 0 1) X) 0 1 :=
  ⟨fun _ p => p, dwFolded_eq, by decide +kernel⟩

/-- **C33 is violated** for a Keras depthwise 1x1 convolution with an activation function in front:
the activation function (here ReLU) is lost. -/
theorem C33_depthwise_activation_violated :
    ∃ X : Nat → Nat → ℚ, forwardFoldDepthwise id dwFront afterDw = .ok (some dwFolded) ∧
      dwFolded.out (fun p _ => some p) X 0 0 ≠
        afterDw.out (fun p _ => some p)
          (fun i p => max 0 (dwFront.out (fun p _ => some p) X i p)) 0 0 :=
  ⟨fun _ _ => -1, dwFolded_eq, by decide +kernel⟩

end MCT.Subst
