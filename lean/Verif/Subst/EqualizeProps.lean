/-
C35: scaling two linear layers around an activation.
-/
import Verif.Subst.EqualizeLemmas
import Verif.Subst.Props
import Verif.Graph.InPlace

namespace MCT.SubstSpec
variable {K P : Type*} [Field K] [LinearOrder K]

/-- A layer without weights is positively homogeneous in every channel: scaling a channel of its input
by a positive factor scales the channel of its output. -/
def Homogeneous (f : (Nat → P → K) → Nat → P → K) : Prop :=
  ∀ s : Nat → K, (∀ i, 0 < s i) → ∀ X, f (fun i p => X i p * s i) = fun i p => f X i p * s i

/-- The layer that applies a function to every entry, and the layer that pads with zeros. -/
def pointwise (act : Nat → K → K) (X : Nat → P → K) : Nat → P → K := fun i p => act i (X i p)
def zeroPad (src : P → Option P) (X : Nat → P → K) : Nat → P → K := fun i p => tap X i (src p)

end MCT.SubstSpec

namespace MCT.Subst
open MCT.SubstSpec MCT.GraphSpec Finset

set_option linter.unusedSectionVars false
set_option linter.unusedVariables false

variable {K P : Type*} [Field K] [LinearOrder K] [IsStrictOrderedRing K]

/-! ### Scale equalization -/

/-- **C35**, the layers: scaling the outputs of the first layer and the inputs of the second one by a
positive factor per channel leaves what the second one computes unchanged, for every input, kind of
layer, geometry, and every positively homogeneous activation (or zero padding) in between. -/
theorem C35_scaled_pair {c1 c2 c1' c2' : Conv K} (hv1 : c1.Valid) (hv2 : c2.Valid)
    (hcc : c2.cin = c1.cout) {s : Nat → K} (hs : ∀ i, 0 < s i)
    (h : updateLinear c1 c2 s = some (c1', c2'))
    {f : (Nat → P → K) → Nat → P → K} (hf : Homogeneous f)
    (src1 src2 : P → Nat → Option P) (X : Nat → P → K) {o : Nat} (ho : o < c2.cout) (p : P) :
    c2'.out src2 (f (channels c1.cout (c1'.out src1 X))) o p =
      c2.out src2 (f (channels c1.cout (c1.out src1 X))) o p := by
  obtain ⟨k1, k2, k3, k4, k5⟩ := updateLinear_spec hv1 hv2 hcc h
  have e1 : channels c1.cout (c1'.out src1 X) = fun i p => channels c1.cout (c1.out src1 X) i p * s i := by
    funext i q
    simp only [channels]
    by_cases hi : i < c1.cout
    · simp only [hi, if_true]
      exact first_out s k1 (fun j t hj ht => k2 i j t hi hj ht) (k3 i) src1 X q
    · simp [hi]
  rw [e1, hf s hs]
  exact second_out s (fun i _ => (hs i).ne') k4 (fun i t hi ht => k5 o i t ho hi ht) src2
    (fun i q _ => rfl) p

/-- **C35**: an unbounded ReLU with any slope for negative inputs and threshold 0 (ReLU, leaky ReLU,
and PReLU with its slope per channel), is positively homogeneous, and so is zero padding. -/
theorem C35_relu_homogeneous (slope : Nat → K) :
    Homogeneous (P := P) (pointwise (fun i => Relu.eval ⟨none, slope i, 0⟩)) := by
  intro s hs X
  funext i p
  simp only [pointwise, Relu.eval, sub_zero]
  have h : X i p * s i < 0 ↔ X i p < 0 := by
    constructor
    · intro h; by_contra hb; exact absurd h (not_lt.2 (mul_nonneg (not_lt.1 hb) (hs i).le))
    · intro h; exact mul_neg_of_neg_of_pos h (hs i)
  simp only [h]
  split
  · ring
  · rfl

theorem C35_padding_homogeneous (src : P → Option P) : Homogeneous (K := K) (zeroPad src) := by
  intro s hs X
  funext i p
  simp only [zeroPad]
  cases src p <;> simp [tap]

/-- **C35**: the scale the library computes is positive and at most 1; a channel whose standard deviation is at most 1 is
left alone, and any other one is brought to a standard deviation of 1. -/
theorem C35_scale_factor {std : K} (h : 0 < std) :
    0 < scaleFactor std ∧ scaleFactor std ≤ 1 ∧ (std ≤ 1 → scaleFactor std = 1) ∧
      (1 ≤ std → std * scaleFactor std = 1) := by
  refine ⟨lt_min (by positivity) one_pos, min_le_right _ _, fun h1 => ?_, fun h1 => ?_⟩
  · exact min_eq_right ((le_div_iff₀ h).2 (by rwa [one_mul]))
  · rw [scaleFactor, min_eq_left ((div_le_iff₀ h).2 (by rwa [one_mul])), mul_one_div, div_self h.ne']

example : scaleFactor (4 : ℚ) = 1 / 4 ∧ scaleFactor (1 / 2 : ℚ) = 1 := by decide +kernel

/-- **C35**, the model, as far as it holds: on every graph, for a walk from one linear layer to
another over activations and zero paddings with nothing else attached and none of whose layers but the
last is a model output, the model computes the same function after the scaling. -/
theorem C35_model_partial {N : Type*} [DecidableEq N] {g : MCT.Graph.Gr N} (wf : WellFormed g)
    {a b : N} {mids : List N} (hchain : Chain g (a :: (mids ++ [b])))
    (hout : ∀ n ∈ a :: mids, ¬ IsOutput g n) (hai : a ∉ g.inputs)
    {c1 c2 c1' c2' : Conv K} (hv1 : c1.Valid) (hv2 : c2.Valid) (hcc : c2.cin = c1.cout)
    {s : Nat → K} (hs : ∀ i, 0 < s i) (h : updateLinear c1 c2 s = some (c1', c2'))
    (src1 src2 : P → Nat → Option P) {I I' : Interp N (Nat → P → K)}
    (ha : ∀ args k, I a args k = channels c1.cout (c1.out src1 (args.headD 0)))
    (ha' : ∀ args k, I' a args k = channels c1.cout (c1'.out src1 (args.headD 0)))
    (hb : ∀ args k, I b args k = channels c2.cout (c2.out src2 (args.headD 0)))
    (hb' : ∀ args k, I' b args k = channels c2.cout (c2'.out src2 (args.headD 0)))
    (hm : ∀ n ∈ mids, ∃ f : (Nat → P → K) → Nat → P → K, Homogeneous f ∧
      ∀ args k, I n args k = f (args.headD 0))
    (hrest : ∀ n, n ≠ a → n ≠ b → I' n = I n) : SameFunction g I g I' := by
  obtain ⟨rank, hr⟩ := wf.acyclic
  obtain ⟨f1, f2, f3⟩ := MCT.Graph.chain_facts hr mids a b hchain
  obtain ⟨k1, k2, k3, k4, k5⟩ := updateLinear_spec hv1 hv2 hcc h
  apply MCT.Graph.chain_same wf hchain hout hai (fun X i p => X i p * s i)
  · intro args k
    rw [ha', ha]
    funext i q
    simp only [channels]
    by_cases hi : i < c1.cout
    · simp only [hi, if_true]
      exact first_out s k1 (fun j t hj ht => k2 i j t hi hj ht) (k3 i) src1 _ q
    · simp [hi]
  · intro n hn x k
    have hna : n ≠ a := by
      rintro rfl
      have := (f2 n (List.mem_append_left _ hn)).1
      omega
    have hnb : n ≠ b := by rintro rfl; exact f3 (List.mem_cons_of_mem _ hn)
    obtain ⟨f, hf, he⟩ := hm n hn
    rw [hrest n hna hnb, he, he]
    exact hf s hs x
  · intro x k
    rw [hb', hb]
    funext o p
    simp only [channels, List.headD_cons]
    split
    · rename_i ho
      exact second_out s (fun i _ => (hs i).ne') k4 (fun i t hi ht => k5 o i t ho hi ht) src2
        (fun i q _ => rfl) p
    · rfl
  · intro n hn hnb
    exact hrest n (fun h => hn (by simp [h])) hnb

/-- Two layers that are scaled: a grouped PyTorch convolution and a transposed one with groups. -/
def grouped1 : Conv ℚ := ⟨.torchConv, 4, 4, 2, 3, 1, fun j => j + 1, some (fun o => o)⟩
def transposed2 : Conv ℚ := ⟨.torchTranspose, 4, 2, 2, 1, 2, fun j => j + 2, none⟩

example : grouped1.Valid ∧ transposed2.Valid ∧ transposed2.cin = grouped1.cout ∧
    (updateLinear grouped1 transposed2 (fun i => 1 / (i + 2))).isSome = true := by
  refine ⟨⟨?_, ?_, ?_, ?_, ?_, ?_, ?_⟩, ⟨?_, ?_, ?_, ?_, ?_, ?_, ?_⟩, ?_, ?_⟩ <;> decide +kernel

/-- A graph with such a walk: input 0, layer 1, activation 2, padding 3, layer 4. -/
example : WellFormed (⟨[0, 1, 2, 3, 4], [⟨0, 1, 0, 0⟩, ⟨1, 2, 0, 0⟩, ⟨2, 3, 0, 0⟩, ⟨3, 4, 0, 0⟩], [0],
    [(4, 0)]⟩ : MCT.Graph.Gr Nat) ∧
    Chain (⟨[0, 1, 2, 3, 4], [⟨0, 1, 0, 0⟩, ⟨1, 2, 0, 0⟩, ⟨2, 3, 0, 0⟩, ⟨3, 4, 0, 0⟩], [0],
    [(4, 0)]⟩ : MCT.Graph.Gr Nat) (1 :: ([2, 3] ++ [4])) :=
  ⟨MCT.Graph.wf_of_check (rank := id) (by decide),
    ⟨_, rfl, rfl⟩, ⟨_, rfl, rfl⟩, ⟨_, rfl, rfl⟩, trivial⟩

/-- **C35** does not reach these layers: with a grouped convolution second, with a depthwise one with a
multiplier first or a grouped transposed one first, the substitution fails (numpy cannot broadcast, or
the kernel it makes does not fit the layer). -/
theorem C35_grouped_fails {c1 c2 : Conv K} (hv1 : c1.Valid) (hv2 : c2.Valid) (hcc : c2.cin = c1.cout)
    (s : Nat → K)
    (h : ((c2.kind = .kerasConv ∨ c2.kind = .torchConv) ∧ 1 < c2.groups) ∨
      (c1.kind = .kerasDepthwise ∧ c1.cout ≠ c1.cin) ∨
      (c1.kind = .torchTranspose ∧ 1 < c1.groups)) : updateLinear c1 c2 s = none := by
  rcases h with ⟨hk, hg⟩ | ⟨hk, hne⟩ | ⟨hk, hg⟩
  · have hlt := Nat.div_lt_self hv2.cin hg
    have : alongAxis (kernelShape c2) (inAxis c2.kind) c1.cout (fun j ch => c2.kernel j / s ch) = none := by
      rw [alongAxis, if_neg]
      rcases hk with hk | hk <;>
        simp only [kernelShape, inAxis, hk, List.getD_cons_succ, List.getD_cons_zero] <;> omega
    rw [updateLinear, this]
  · have : alongAxis (kernelShape c1) (outAxis c1.kind) c1.cout (fun j ch => c1.kernel j * s ch) = none := by
      rw [alongAxis, if_neg]
      simp only [kernelShape, outAxis, hk, List.getD_cons_succ, List.getD_cons_zero]
      exact fun h => hne h.symm
    rw [updateLinear, this]
    split
    · rename_i h; exact absurd h (by simp)
    · rfl
  · have hlt := Nat.div_lt_self hv1.cout hg
    have : alongAxis (kernelShape c1) (outAxis c1.kind) c1.cout (fun j ch => c1.kernel j * s ch) = none := by
      rw [alongAxis, if_neg]
      simp only [kernelShape, outAxis, hk, List.getD_cons_succ, List.getD_cons_zero]
      omega
    rw [updateLinear, this]
    split
    · rename_i h; exact absurd h (by simp)
    · rfl

/-- One channel in, one channel out, with weight 1. -/
def unit1 : Conv ℚ := ⟨.kerasConv, 1, 1, 1, 1, 1, fun _ => 1, some (fun _ => 0)⟩

/-- **C35 is violated** for a Keras ReLU with a bound, which the substitution takes for a ReLU: with
the bound 8 and the scale 1/2 an input of 10 gives 10 and not 8. -/
theorem C35_bounded_violated : unit1.Valid ∧ ∃ c1' c2',
    updateLinear unit1 unit1 (fun _ => 1 / 2) = some (c1', c2') ∧
    c2'.out (fun p _ => some p) (pointwise (fun _ => Relu.eval ⟨some 8, 0, 0⟩)
      (c1'.out (fun p _ => some p) (fun _ (_ : Nat) => 10))) 0 0 ≠
    unit1.out (fun p _ => some p) (pointwise (fun _ => Relu.eval ⟨some 8, 0, 0⟩)
      (unit1.out (fun p _ => some p) (fun _ (_ : Nat) => 10))) 0 0 := by
  refine ⟨⟨?_, ?_, ?_, ?_, ?_, ?_, ?_⟩, _, _, rfl, ?_⟩ <;> decide +kernel

/-- **C35 is violated** for a Keras ReLU with a threshold: with threshold 2 and the scale 1/2 an input
of 3 gives 0 and not 3. -/
theorem C35_threshold_violated : ∃ c1' c2',
    updateLinear unit1 unit1 (fun _ => 1 / 2) = some (c1', c2') ∧
    c2'.out (fun p _ => some p) (pointwise (fun _ => Relu.eval ⟨none, 0, 2⟩)
      (c1'.out (fun p _ => some p) (fun _ (_ : Nat) => 3))) 0 0 ≠
    unit1.out (fun p _ => some p) (pointwise (fun _ => Relu.eval ⟨none, 0, 2⟩)
      (unit1.out (fun p _ => some p) (fun _ (_ : Nat) => 3))) 0 0 := by
  refine ⟨_, _, rfl, ?_⟩; decide +kernel

/-- A walk whose middle layer, the activation, is also a model output. -/
def walkWithOutput : MCT.Graph.Gr Nat :=
  ⟨[0, 1, 2, 3], [⟨0, 1, 0, 0⟩, ⟨1, 2, 0, 0⟩, ⟨2, 3, 0, 0⟩], [0], [(3, 0), (2, 0)]⟩

/-- The layers 1 and 3 of that graph multiply by the given weights, layer 2 is a ReLU. -/
def walkInterp (w1 w3 : ℚ) : Interp Nat ℚ := fun n args _ =>
  if n = 1 then w1 * args.headD 0 else if n = 2 then max (args.headD 0) 0
  else if n = 3 then w3 * args.headD 0 else 0

/-- **C35 is violated** when the activation is itself an output of the model: the matcher looks only at
the layers that follow, so the walk is found, and that output is scaled. -/
theorem C35_model_output_violated : WellFormed walkWithOutput ∧ Chain walkWithOutput (1 :: ([2] ++ [3])) ∧
    ¬ SameFunction walkWithOutput (walkInterp 1 1) walkWithOutput (walkInterp (1 / 2) 2) := by
  refine ⟨MCT.Graph.wf_of_check (rank := id) (by decide), ⟨⟨_, rfl, rfl⟩, ⟨_, rfl, rfl⟩, trivial⟩, ?_⟩
  refine MCT.Graph.not_same (rank := id) (rank' := id) (fun _ => 2) 4 (by decide) (by decide)
    (by decide) (by decide) ?_
  simp [MCT.Graph.run, MCT.Graph.evalAt, arguments, incoming, walkWithOutput, walkInterp]

/-! ### The bound of a ReLU -/

/-- **C35**, bounded ReLU: when the bound of the activation is replaced, the two layers and the new
activation together compute what they did, for every bound above 0, slope, kind of layer and input, if
the threshold of the activation is 0. -/
theorem C35_bound {isPow2 : K → Bool} {bound m : K} (hbound : 0 < bound) (hm : 0 < m)
    {c1 c2 c1' c2' : Conv K} {r r' : Relu K} (hr : r.maxValue = some m) (ht : r.threshold = 0)
    (h : reluBound isPow2 bound c1 r c2 = .ok (some (c1', r', c2')))
    (src1 src2 : P → Nat → Option P) (X : Nat → P → K) (o : Nat) (p : P) :
    c2'.out src2 (pointwise (fun _ => r'.eval) (c1'.out src1 X)) o p =
      c2.out src2 (pointwise (fun _ => r.eval) (c1.out src1 X)) o p ∧
    r'.maxValue = some bound := by
  rw [reluBound, boundReplaced, hr] at h
  simp only at h
  split at h
  · simp at h
  rename_i m' hm'
  have hmm : m' = m := by
    split at hm'
    · simp at hm'
    · exact (Option.some.inj hm').symm
  subst hmm
  split at h
  · simp at h
  rename_i b hb
  simp only [Except.ok.injEq, Option.some.injEq, Prod.mk.injEq] at h
  obtain ⟨rfl, rfl, rfl⟩ := h
  refine ⟨?_, rfl⟩
  have hs : 0 < m' / bound := div_pos hm hbound
  set s := m' / bound with hsdef
  have e1 : ∀ i q, Conv.out ({ c1 with
      kernel := fun j => c1.kernel j / s
      bias := some (fun o => b o / s) } : Conv K) src1 X i q = c1.out src1 X i q * s⁻¹ := by
    intro i q
    refine first_out (c := c1) (c' := ({ c1 with
      kernel := fun j => c1.kernel j / s
      bias := some (fun o => b o / s) } : Conv K)) (o := i) (fun _ => s⁻¹) ⟨rfl, rfl, rfl⟩ (fun j t hj ht => ?_) ?_ src1 X q
    · rw [← div_eq_mul_inv]
      exact weight_map c1 (fun x => x / s) (zero_div _) i j t
    · simp [valueOr, hb, div_eq_mul_inv]
  have e2 : ∀ y, Relu.eval ({ r with maxValue := some bound } : Relu K) (y * s⁻¹) = r.eval y * s⁻¹ := by
    intro y
    have hs' : 0 < s⁻¹ := inv_pos.2 hs
    simp only [Relu.eval, hr, ht, sub_zero]
    have hn : y * s⁻¹ < 0 ↔ y < 0 := by
      constructor
      · intro h; by_contra hb; exact absurd h (not_lt.2 (mul_nonneg (not_lt.1 hb) hs'.le))
      · intro h; exact mul_neg_of_neg_of_pos h hs'
    simp only [hn]
    split
    · ring
    · have hbd : bound = m' * s⁻¹ := by rw [hsdef]; field_simp
      conv_lhs => rw [hbd]
      exact (min_mul_of_nonneg _ _ hs'.le).symm
  refine second_out (c := c2) (c' := ({ c2 with kernel := fun j => s * c2.kernel j } : Conv K)) (fun _ => s⁻¹) (fun i _ => inv_ne_zero hs.ne') ⟨rfl, rfl, rfl, rfl⟩
    (fun i t _ _ => ?_) src2 (fun i q _ => ?_) p
  · rw [div_inv_eq_mul, mul_comm]
    exact weight_map c2 (fun x => s * x) (mul_zero _) o i t
  · simp only [pointwise, e1, e2]

/-- ReLU6 becomes a ReLU bounded by 8, and the layers are scaled by 3/4. -/
example : ∃ c1' c2', reluBound (fun m => decide (m = 8)) 8 unit1 ⟨some 6, 0, 0⟩ unit1 =
    .ok (some (c1', ⟨some 8, 0, 0⟩, c2')) ∧ c2'.kernel 0 = 3 / 4 ∧ c1'.kernel 0 = 4 / 3 := by
  refine ⟨_, _, rfl, ?_, ?_⟩ <;> decide +kernel

/-- Without a bound, or with one that is a power of two already, nothing changes. -/
theorem C35_bound_left_alone {isPow2 : K → Bool} {bound : K} {c1 c2 : Conv K} {r : Relu K}
    (h : r.maxValue = none ∨ ∃ m, r.maxValue = some m ∧ isPow2 m = true) :
    reluBound isPow2 bound c1 r c2 = .ok none := by
  rcases h with h | ⟨m, h, hp⟩
  · simp [reluBound, boundReplaced, h]
  · simp [reluBound, boundReplaced, h, hp]

/-- **C35 is violated** for a first layer without a bias: the library fails. -/
theorem C35_bound_without_bias_violated {isPow2 : K → Bool} {bound m : K} {c1 c2 : Conv K} {r : Relu K}
    (hr : r.maxValue = some m) (hp : isPow2 m = false) (hb : c1.bias = none) :
    reluBound isPow2 bound c1 r c2 = .error () := by
  simp [reluBound, boundReplaced, hr, hp, hb]

/-- **C35 is violated** for the function `hardtanh(x, 0, 6)` of PyTorch: its bound stays 6 while the
layers are scaled as if it had become 8; an input of 7 gives 9/2 and not 6. -/
theorem C35_bound_functional_violated : ∃ c1' r' c2',
    reluBoundFunctional (fun m => decide (m = 8)) 8 unit1 ⟨some 6, 0, 0⟩ unit1 =
      .ok (some (c1', r', c2')) ∧
    c2'.out (fun p _ => some p) (pointwise (fun _ => r'.eval)
      (c1'.out (fun p _ => some p) (fun _ (_ : Nat) => 7))) 0 0 ≠
    unit1.out (fun p _ => some p) (pointwise (fun _ => Relu.eval ⟨some 6, 0, 0⟩)
      (unit1.out (fun p _ => some p) (fun _ (_ : Nat) => 7))) 0 0 := by
  refine ⟨_, _, _, rfl, ?_⟩; decide +kernel

/-- **C35 is violated** for a bounded Keras ReLU with a threshold: with the bound 6 and the threshold 2
an input of 7/4 gives 7/4 and not 0. -/
theorem C35_bound_threshold_violated : ∃ c1' r' c2',
    reluBound (fun m => decide (m = 8)) 8 unit1 ⟨some 6, 0, 2⟩ unit1 = .ok (some (c1', r', c2')) ∧
    c2'.out (fun p _ => some p) (pointwise (fun _ => r'.eval)
      (c1'.out (fun p _ => some p) (fun _ (_ : Nat) => 7 / 4))) 0 0 ≠
    unit1.out (fun p _ => some p) (pointwise (fun _ => Relu.eval ⟨some 6, 0, 2⟩)
      (unit1.out (fun p _ => some p) (fun _ (_ : Nat) => 7 / 4))) 0 0 := by
  refine ⟨_, _, _, rfl, ?_⟩; decide +kernel

end MCT.Subst
