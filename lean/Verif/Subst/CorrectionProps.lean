/-
C75: bias correction of quantized weights. C76: bias correction of quantized activations.
C77: the shift before softmax. C78: input scaling.
-/
import Verif.Subst.CorrectionLemmas
import Verif.Subst.EqualizeProps
import Verif.Graph.Witness
import Mathlib.Analysis.SpecialFunctions.Exp

namespace MCT.SubstSpec

/-- The softmax of `n` values. -/
noncomputable def softmax (n : Nat) (x : Nat → ℝ) (i : Nat) : ℝ :=
  Real.exp (x i) / ∑ j ∈ Finset.range n, Real.exp (x j)

end MCT.SubstSpec

namespace MCT.Subst
open MCT.SubstSpec MCT.GraphSpec Finset

set_option linter.unusedSectionVars false
set_option linter.unusedVariables false
set_option linter.unusedSimpArgs false

variable {K P : Type*} [Field K]

/-! ### Weights -/

/-- **C75**, as far as it holds: for every layer, every quantized kernel and every set of samples whose
channels have the recorded means at each position a window reads, the average output of the layer with
the quantized kernel and the corrected bias is the average output of the float layer. All kinds of
layers but PyTorch's transposed convolution with groups. -/
theorem C75_unbiased_partial {c : Conv K} (hv : c.Valid) (hu : c.kind = .torchTranspose → c.groups = 1)
    (qk mu : Nat → K) :
    ∃ c', biasCorrected c qk mu = some c' ∧ c'.kernel = qk ∧ ∀ (m : Nat) (X : Nat → Nat → P → K)
      (src : P → Nat → Option P) (p : P), (∀ i < c.cin, ∀ t < c.kh * c.kw,
        ∑ j ∈ range m, tap (X j) i (src p t) = m * mu i) → ∀ o < c.cout,
      ∑ j ∈ range m, c'.out src (X j) o p = ∑ j ∈ range m, c.out src (X j) o p := by
  obtain ⟨h1, h2⟩ := correctionTerm_spec hv hu qk mu
  obtain ⟨b, hb, hb'⟩ := subtractTerm_spec (bias := c.bias) h1
  refine ⟨_, by rw [biasCorrected, hb]; rfl, rfl, ?_⟩
  intro m X src p hX o ho
  have key : ∀ w : Nat → Nat → K, ∑ j ∈ range m, ∑ i ∈ range c.cin, ∑ t ∈ range (c.kh * c.kw),
      w i t * tap (X j) i (src p t) = m * ∑ i ∈ range c.cin, ∑ t ∈ range (c.kh * c.kw), w i t * mu i := by
    intro w
    rw [sum_comm, mul_sum]
    apply sum_congr rfl
    intro i hi
    rw [sum_comm, mul_sum]
    apply sum_congr rfl
    intro t ht
    rw [← mul_sum, hX i (mem_range.1 hi) t (mem_range.1 ht)]
    ring
  simp only [Conv.out, sum_add_distrib, sum_const, card_range, nsmul_eq_mul]
  rw [key, key]
  have : valueOr (some b) 0 o = valueOr c.bias 0 o - (correctionTerm c qk mu).2 o := hb' o
  rw [this, h2 o ho]
  have e : ∑ i ∈ range c.cin, ∑ t ∈ range (c.kh * c.kw),
        (({ c with kernel := qk } : Conv K).weight o i t - c.weight o i t) * mu i =
      (∑ i ∈ range c.cin, ∑ t ∈ range (c.kh * c.kw), ({ c with kernel := qk } : Conv K).weight o i t * mu i) -
        ∑ i ∈ range c.cin, ∑ t ∈ range (c.kh * c.kw), c.weight o i t * mu i := by
    rw [← sum_sub_distrib]
    apply sum_congr rfl
    intro i _
    rw [← sum_sub_distrib]
    exact sum_congr rfl (fun t _ => by ring)
  rw [e]
  have hw : ∀ i t, ({ c with
      kernel := qk
      bias := some b } : Conv K).weight o i t = ({ c with kernel := qk } : Conv K).weight o i t :=
    fun i t => rfl
  simp only [hw]
  ring

/-- A quantized kernel that is the float kernel needs no correction. -/
theorem C75_no_error {c : Conv K} (hv : c.Valid) (hu : c.kind = .torchTranspose → c.groups = 1)
    (mu : Nat → K) {o : Nat} (ho : o < c.cout) : (correctionTerm c c.kernel mu).2 o = 0 := by
  rw [(correctionTerm_spec hv hu c.kernel mu).2 o ho]
  simp

/-- Grouped, depthwise and transposed layers; two samples around the means 1 and 2. -/
example : grouped1.Valid ∧ depthwise2.kind ≠ .torchTranspose ∧
    ((biasCorrected grouped1 (fun j => j) (fun i => i)).map (fun c => (List.range 4).map (fun o =>
      (c.bias.getD 0) o))) = some [3, 4, 17, 18] := by
  refine ⟨⟨?_, ?_, ?_, ?_, ?_, ?_, ?_⟩, ?_, ?_⟩ <;> decide +kernel

/-- **C75 is violated** for PyTorch's transposed convolution with groups: with one output channel per
group the term has one entry, the sum over all input channels, which is subtracted from every channel
of the bias (depthwise transposed convolution, two channels with kernels 1 and 1, quantized 2 and 1:
only the first output should be corrected). -/
theorem C75_grouped_transpose_violated :
    ∃ (c c' : Conv ℚ) (qk mu : Nat → ℚ), c.Valid ∧ biasCorrected c qk mu = some c' ∧
      (∀ j, j ≠ 0 → qk j = c.kernel j) ∧
      c'.out (fun (p : Unit) _ => some p) (fun i _ => mu i) 1 () ≠
        c.out (fun (p : Unit) _ => some p) (fun i _ => mu i) 1 () := by
  refine ⟨⟨.torchTranspose, 2, 2, 2, 1, 1, fun _ => 1, some (fun _ => 0)⟩, _,
    fun j => if j = 0 then 2 else 1, fun _ => 1, ⟨?_, ?_, ?_, ?_, ?_, ?_, ?_⟩, rfl, ?_, ?_⟩
  any_goals decide +kernel
  intro j hj
  simp [hj]

/-- **C75 is not reached** for the same layer with several output channels per group: the term has too
few entries for the bias. -/
theorem C75_grouped_transpose_fails {c : Conv K} (hk : c.kind = .torchTranspose) (hg : 1 < c.groups)
    (hv : c.Valid) (hm : c.cout / c.groups ≠ 1) (qk mu : Nat → K) : biasCorrected c qk mu = none := by
  have hlt : c.cout / c.groups < c.cout := Nat.div_lt_self hv.cout hg
  have h1 : (correctionTerm c qk mu).1 = c.cout / c.groups := by
    simp only [correctionTerm]
    split
    · simp [errorSums, hk]
    · split <;> simp [errorSums, hk]
  have : subtractTerm c.cout c.bias (correctionTerm c qk mu) = none := by
    cases c.bias <;> simp only [subtractTerm, h1] <;> simp [hlt.ne, hm]
  rw [biasCorrected, this]; rfl

example : (⟨.torchTranspose, 4, 4, 2, 3, 3, fun _ => 1, none⟩ : Conv ℚ).Valid := by
  refine ⟨?_, ?_, ?_, ?_, ?_, ?_, ?_⟩ <;> decide

/-! ### Activations -/

/-- **C76**, as far as it holds: when quantizing the activations moves the mean of every input channel
by the computed difference, the average output of a layer with a kernel of one element does not move
after the correction. Layers with a larger kernel are left alone. -/
theorem C76_unbiased_partial {c : Conv K} (hv : c.Valid) (hu : c.kind = .torchTranspose → c.groups = 1)
    (h1 : c.kh = 1 ∧ c.kw = 1) (diff : K) :
    ∃ c', activationCorrected c diff = some c' ∧ ∀ (m : Nat) (X Y : Nat → Nat → P → K)
      (src : P → Nat → Option P) (p : P), (∀ i < c.cin,
        ∑ j ∈ range m, tap (Y j) i (src p 0) = ∑ j ∈ range m, tap (X j) i (src p 0) + m * diff) →
      ∀ o < c.cout, ∑ j ∈ range m, c'.out src (Y j) o p = ∑ j ∈ range m, c.out src (X j) o p := by
  obtain ⟨s1, s2⟩ := outputSums_spec hv hu
  obtain ⟨b, hb, hb'⟩ := subtractTerm_spec (bias := c.bias)
    (term := ((outputSums c).1, fun o => diff * (outputSums c).2 o)) s1
  refine ⟨{ c with bias := some b }, by simp only [activationCorrected, if_pos h1, hb, Option.map_some], ?_⟩
  intro m X Y src p hX o ho
  simp only [Conv.out, sum_add_distrib, sum_const, card_range, nsmul_eq_mul]
  have hw : ∀ i t, ({ c with bias := some b } : Conv K).weight o i t = c.weight o i t := fun i t => rfl
  have : valueOr (some b) 0 o = valueOr c.bias 0 o - diff * (outputSums c).2 o := hb' o
  rw [this, s2 o ho]
  simp only [hw]
  simp only [h1.1, h1.2, Nat.mul_one, sum_range_one]
  have key : ∑ j ∈ range m, ∑ i ∈ range c.cin, c.weight o i 0 * tap (Y j) i (src p 0) =
      ∑ j ∈ range m, ∑ i ∈ range c.cin, c.weight o i 0 * tap (X j) i (src p 0) +
        m * (diff * ∑ i ∈ range c.cin, c.weight o i 0) := by
    conv_lhs => rw [sum_comm]
    conv_rhs => rw [sum_comm]
    rw [mul_sum, mul_sum, ← sum_add_distrib]
    apply sum_congr rfl
    intro i hi
    rw [← mul_sum, ← mul_sum, hX i (mem_range.1 hi)]
    ring
  rw [key]
  ring

theorem C76_larger_kernel_left_alone {c : Conv K} (h : ¬ (c.kh = 1 ∧ c.kw = 1)) (diff : K) :
    activationCorrected c diff = some c := by
  simp only [activationCorrected, if_neg h]

/-- An ungrouped layer with a kernel of one element, histogram with edges 0, 1, 2 and a quantizer that
rounds to multiples of 2. -/
example : (⟨.kerasConv, 2, 1, 1, 1, 1, fun j => j + 1, none⟩ : Conv ℚ).Valid ∧
    meanDiff [0, 1, 2] [1, 3] (fun x : ℚ => 2 * ⌊x / 2⌋) = -1 / 2 := by
  refine ⟨⟨?_, ?_, ?_, ?_, ?_, ?_, ?_⟩, ?_⟩ <;> decide +kernel

/-- **C76 is violated** where the window reads nothing: a transposed convolution with kernel 1 and stride
2, or a convolution with kernel 1 and padding, has outputs that are the bias alone, and the correction
moves them. -/
theorem C76_gap_violated :
    transposeAxis 4 2 0 1 1 0 = none ∧ convAxis 4 1 1 1 0 0 = none ∧
    ∃ c c' : Conv ℚ, c.Valid ∧ activationCorrected c 1 = some c' ∧
      c'.out (fun p t => transposeAxis 4 2 0 1 p t) (fun _ _ => 1) 0 1 ≠
        c.out (fun p t => transposeAxis 4 2 0 1 p t) (fun _ _ => 0) 0 1 := by
  refine ⟨rfl, rfl, ⟨.kerasTranspose, 1, 1, 1, 1, 1, fun _ => 1, none⟩, _, ⟨?_, ?_, ?_, ?_, ?_, ?_, ?_⟩,
    rfl, ?_⟩ <;> decide +kernel

/-- **C76 is violated** for PyTorch's transposed convolution with groups as C75 is. -/
theorem C76_grouped_transpose_violated :
    ∃ c c' : Conv ℚ, c.Valid ∧ activationCorrected c 1 = some c' ∧
      c'.out (fun (p : Unit) _ => some p) (fun i _ => 1) 1 () ≠
        c.out (fun (p : Unit) _ => some p) (fun i _ => 0) 1 () := by
  refine ⟨⟨.torchTranspose, 2, 2, 2, 1, 1, fun _ => 1, some (fun _ => 0)⟩, _,
    ⟨?_, ?_, ?_, ?_, ?_, ?_, ?_⟩, rfl, ?_⟩ <;> decide +kernel

/-- **C76**: the difference of the means vanishes when the quantizer does not move the edges of the
histogram. -/
theorem C76_no_error (bins counts : List K) (q : K → K) (h : ∀ b ∈ bins, q b = b) :
    meanDiff bins counts q = 0 := by
  have : bins.map q = bins := by
    conv_rhs => rw [← List.map_id bins]
    exact List.map_congr_left h
  simp [meanDiff, this]

/-! ### Softmax -/

/-- **C77**: softmax does not see a shift of all its inputs. -/
theorem C77_softmax_shift (n : Nat) (x : Nat → ℝ) (s : ℝ) (i : Nat) :
    softmax n (fun j => x j + s) i = softmax n x i := by
  simp only [softmax, Real.exp_add, ← sum_mul]
  rw [mul_div_mul_right _ _ (Real.exp_ne_zero s)]

/-- **C77**: for every dense layer with a bias, recorded range and input, softmax of the shifted layer is
softmax of the layer, and the recorded range is shifted with the layer and centred at 0. -/
theorem C77_layer_partial {d : Dense ℝ} {b : Nat → ℝ} (hb : d.bias = some b) (hu : d.useBias = true)
    (minV maxV : ℝ) (n : Nat) (x : Nat → ℝ) :
    (∀ i, softmax n ((softmaxShift d minV maxV).1.out x) i = softmax n (d.out x) i) ∧
      (∀ o, (softmaxShift d minV maxV).1.out x o - d.out x o = (softmaxShift d minV maxV).2.1 - minV) ∧
      (softmaxShift d minV maxV).2.1 - minV = (softmaxShift d minV maxV).2.2 - maxV ∧
      (softmaxShift d minV maxV).2.2 = -(softmaxShift d minV maxV).2.1 := by
  have e : (softmaxShift d minV maxV).1.out x = fun o => d.out x o + (-1 * (maxV + minV) / 2) := by
    funext o
    simp only [softmaxShift, Dense.out, hb, hu, if_true, Option.map_some, Option.getD_some]
    ring
  refine ⟨?_, ?_, ?_, ?_⟩
  · intro i; rw [e]; exact C77_softmax_shift n _ _ i
  · intro o; rw [e]; simp only [softmaxShift]; ring
  · simp only [softmaxShift]; ring
  · simp only [softmaxShift]; ring

/-- **C77**, the model: on every graph in which softmax is the only consumer of the layer and the layer is
not a model output (tensors of any shape, one row of `n` entries per position). -/
theorem C77_model_partial {N : Type*} [DecidableEq N] {g : MCT.Graph.Gr N} (wf : WellFormed g) {a b : N}
    (hchain : Chain g (a :: ([] ++ [b]))) (hao : ¬ IsOutput g a) (hai : a ∉ g.inputs)
    {d : Dense ℝ} {bias : Nat → ℝ} (hb : d.bias = some bias) (hu : d.useBias = true) (minV maxV : ℝ) (n : Nat)
    {I I' : Interp N (P → Nat → ℝ)}
    (ha : ∀ args k, I a args k = fun p => d.out ((args.headD 0) p))
    (ha' : ∀ args k, I' a args k = fun p => (softmaxShift d minV maxV).1.out ((args.headD 0) p))
    (hs : ∀ args k, I b args k = fun p => softmax n ((args.headD 0) p))
    (hrest : ∀ m, m ≠ a → I' m = I m) : SameFunction g I g I' := by
  obtain ⟨rank, hr⟩ := wf.acyclic
  obtain ⟨f1, f2, f3⟩ := MCT.Graph.chain_facts hr [] a b hchain
  apply MCT.Graph.chain_same wf hchain _ hai (fun X p o => X p o + (-1 * (maxV + minV) / 2))
  · intro args k
    rw [ha, ha']
    funext p o
    simp only [softmaxShift, Dense.out, hb, hu, if_true, Option.map_some, Option.getD_some]
    ring
  · simp
  · intro x k
    rw [hrest b (fun h => f3 (by simp [h])), hs, hs]
    funext p i
    exact C77_softmax_shift n _ _ i
  · intro m hm _
    exact hrest m (fun h => hm (by simp [h]))
  · intro m hm
    obtain rfl := List.mem_singleton.1 hm
    exact hao

example : WellFormed (⟨[0, 1, 2], [⟨0, 1, 0, 0⟩, ⟨1, 2, 0, 0⟩], [0], [(2, 0)]⟩ : MCT.Graph.Gr Nat) ∧
    Chain (⟨[0, 1, 2], [⟨0, 1, 0, 0⟩, ⟨1, 2, 0, 0⟩], [0], [(2, 0)]⟩ : MCT.Graph.Gr Nat) (1 :: ([] ++ [2])) :=
  ⟨MCT.Graph.wf_of_check (rank := id) (by decide), ⟨_, rfl, rfl⟩, trivial⟩

/-- **C77 is violated** for a layer without a bias: the weights gain a bias, but the layer is built
without one, so its outputs do not move while their recorded range does. -/
theorem C77_without_bias_violated :
    ∃ (d : Dense ℚ) (x : Nat → ℚ), d.useBias = false ∧ (softmaxShift d 0 4).2.1 ≠ 0 ∧
      (softmaxShift d 0 4).1.out x = d.out x := by
  refine ⟨⟨1, false, fun _ _ => 1, none⟩, fun _ => 1, rfl, by decide +kernel, ?_⟩
  funext o
  simp [softmaxShift, Dense.out]

/-- **C77 is violated** when the layer itself is a model output: the search for the pattern only looks at
consumers. Numbers for tensors; layer 1 moves by 2, its consumer does not see it. -/
theorem C77_output_violated :
    ∃ (g : MCT.Graph.Gr Nat) (I I' : Interp Nat Int), WellFormed g ∧ Chain g [1, 2] ∧
      (∀ args k, I' 1 args k = I 1 args k + 2) ∧ (∀ x k, I' 2 [x + 2] k = I 2 [x] k) ∧
      ¬ SameFunction g I g I' := by
  refine ⟨⟨[0, 1, 2], [⟨0, 1, 0, 0⟩, ⟨1, 2, 0, 0⟩], [0], [(2, 0), (1, 0)]⟩,
    fun n args _ => if n = 1 then args.headD 0 else 0, fun n args _ => if n = 1 then args.headD 0 + 2 else 0,
    MCT.Graph.wf_of_check (rank := id) (by decide), ⟨⟨_, rfl, rfl⟩, trivial⟩, by simp, by simp, ?_⟩
  refine MCT.Graph.not_same (rank := id) (rank' := id) (fun _ => 0) 10 (by decide) (by decide) (by decide)
    (by decide) ?_
  simp [MCT.Graph.run, MCT.Graph.evalAt, arguments, incoming]

/-! ### Input scaling -/

section Scaling
variable [LinearOrder K] [IsStrictOrderedRing K]

/-- **C78**: for every layer, recorded range and threshold: when the substitution is applied, the scaled
layer computes from an input that was multiplied by the reported scale what the layer computed from the
input, directly or behind zero padding, and the scaled range just reaches the threshold. -/
theorem C78_input_scaling {c c' : Conv K} {minV maxV threshold scale : K}
    (h : inputScaling c minV maxV threshold = some (c', scale)) (hf : 0 < max |minV| maxV) :
    (∀ (src : P → Nat → Option P) (X : Nat → P → K) (o : Nat) (p : P),
      c'.out src (fun i q => X i q * scale) o p = c.out src X o p) ∧
    (∀ (orig : P → Option P) (src : P → Nat → Option P) (X : Nat → P → K) (o : Nat) (p : P),
      c'.out src (zeroPad orig (fun i q => X i q * scale)) o p = c.out src (zeroPad orig X) o p) ∧
    max |minV * scale| (maxV * scale) = threshold ∧ 1 < scale := by
  simp only [inputScaling] at h
  split at h
  swap
  · exact absurd h (by simp)
  rename_i hlt
  obtain ⟨rfl, rfl⟩ := Prod.mk.inj (Option.some.inj h)
  set f := max |minV| maxV with hfd
  have ht : 0 < threshold := hf.trans hlt
  have hs : 0 < 1 / (f / threshold) := by positivity
  have hw : ∀ o i t, ({ c with kernel := fun j => c.kernel j * (f / threshold) } : Conv K).weight o i t =
      c.weight o i t * (f / threshold) := by
    intro o i t
    rcases hk : c.kind with _ | _ | _ | _ | _ <;> simp only [Conv.weight, hk] <;>
      first | rfl | (split <;> simp)
  have hout : ∀ (src : P → Nat → Option P) (X Y : Nat → P → K) (o : Nat) (p : P),
      (∀ i t, tap Y i (src p t) = tap X i (src p t) * (1 / (f / threshold))) →
      ({ c with kernel := fun j => c.kernel j * (f / threshold) } : Conv K).out src Y o p = c.out src X o p := by
    intro src X Y o p hY
    simp only [Conv.out, hw, hY]
    congr 1
    apply sum_congr rfl
    intro i _
    apply sum_congr rfl
    intro t _
    have h1 := hf.ne'
    have h2 := ht.ne'
    field_simp
  refine ⟨?_, ?_, ?_, ?_⟩
  · intro src X o p
    apply hout
    intro i t
    cases src p t <;> simp [tap]
  · intro orig src X o p
    apply hout
    intro i t
    cases src p t with
    | none => simp [tap]
    | some q =>
      simp only [tap, zeroPad]
      cases orig q <;> simp [tap]
  · rw [abs_mul, abs_of_pos hs, ← max_mul_of_nonneg _ _ hs.le, ← hfd]
    have h1 := hf.ne'
    have h2 := ht.ne'
    field_simp
  · rw [one_div_div, one_lt_div hf]; exact hlt

example : ((inputScaling keras22 (-1 / 2) 1 2).map (fun r => r.2) = some 2) ∧
    0 < max |(-1 / 2 : ℚ)| 1 := by
  constructor <;> decide +kernel

/-- **C78**: a model without a scaled input reports 1, one with one scaled input reports its scale. -/
theorem C78_reported_partial (s : K) : reportedScale ([] : List K) = 1 ∧ reportedScale [s] = s := ⟨rfl, rfl⟩

/-- **C78 is violated** for a model with two inputs: the user is told one scale for all inputs, the last
one, and feeding both inputs with it does not give the function of the model. -/
theorem C78_two_inputs_violated :
    ∃ (c c1 c2 : Conv ℚ) (s1 s2 : ℚ), inputScaling c 0 1 2 = some (c1, s1) ∧ inputScaling c 0 1 4 = some (c2, s2) ∧
      c1.out (fun (p : Unit) _ => some p) (fun _ _ => 1 * reportedScale [s1, s2]) 0 () ≠
        c.out (fun (p : Unit) _ => some p) (fun _ _ => 1) 0 () := by
  refine ⟨⟨.kerasConv, 1, 1, 1, 1, 1, fun _ => 1, none⟩, ⟨.kerasConv, 1, 1, 1, 1, 1, fun _ => 1 / 2, none⟩,
    ⟨.kerasConv, 1, 1, 1, 1, 1, fun _ => 1 / 4, none⟩, 2, 4, ?_, ?_, ?_⟩
  · norm_num [inputScaling]
  · norm_num [inputScaling]
  · decide +kernel

end Scaling

end MCT.Subst
