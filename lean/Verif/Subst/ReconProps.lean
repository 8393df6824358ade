/-
C34 and C72: second moment correction takes a layer apart and puts it together again.
-/
import Verif.Quant.Props
import Verif.Subst.ReconLemmas
import Verif.Subst.Props
import Mathlib.Analysis.SpecialFunctions.Sqrt

namespace MCT.Subst
open MCT.SubstSpec MCT.GraphSpec Finset

set_option linter.unusedSectionVars false
set_option linter.unusedVariables false

variable {P : Type*}

/-! ### C34 -/

/-- **C34**, first part: the inserted batch normalisation computes the identity, for every standard
deviation, mean and input. -/
theorem C34_inserted_is_identity {eps : ℝ} (heps : 0 < eps) (std mean : Nat → ℝ) (X : Nat → P → ℝ)
    (o : Nat) (p : P) : (reconstructBN Real.sqrt eps std mean).out Real.sqrt X o p = X o p := by
  have h : Real.sqrt (std o ^ 2 + eps) ≠ 0 := (Real.sqrt_pos.2 (by positivity)).ne'
  simp only [BN.out, reconstructBN, valueOr, Option.map_some, Option.getD_some]
  rw [div_mul_cancel₀ _ h]; ring

/-- **C34**, first part, on the model: when the batch normalisation is inserted after a layer (with
one output) on any graph, the model computes the same function. -/
theorem C34_model {N : Type*} [DecidableEq N] {g : MCT.Graph.Gr N} (wf : WellFormed g) {cur new : N}
    (hcur : cur ∈ g.nodes) (hnew : new ∉ g.nodes) (hci : cur ∉ g.inputs)
    (hone : (∀ r ∈ edgesFrom g cur, r.si = 0) ∧ ∀ k, (cur, k) ∈ g.outputs → k = 0)
    {eps : ℝ} (heps : 0 < eps) (std mean : Nat → ℝ) {I : Interp N (Nat → P → ℝ)}
    (hI : ∀ args k, I new args k =
      (reconstructBN Real.sqrt eps std mean).out Real.sqrt (args.headD 0)) :
    ∃ g', MCT.Graph.appendAfter g cur new = some g' ∧ WellFormed g' ∧ SameFunction g I g' I := by
  obtain ⟨g', h1, h2, h3, -⟩ := MCT.Graph.C71_append wf hcur hnew hci hone (I := I) (I' := I)
    (fun _ _ _ => rfl) (by
      intro args
      rw [hI]
      funext o p
      exact C34_inserted_is_identity heps std mean _ o p)
  exact ⟨g', h1, h2, h3⟩

/-- **C34**, second part: folding the inserted batch normalisation back restores the layer exactly,
kernel and bias. -/
theorem C34_refused_restores {c : Conv ℝ} {b : Nat → ℝ} (hb : c.bias = some b) {eps : ℝ}
    (heps : 0 < eps) (std mean : Nat → ℝ) :
    refuseBN Real.sqrt c (reconstructBN Real.sqrt eps std mean) = some c := by
  have hs : ∀ o, refuseScale Real.sqrt (reconstructBN Real.sqrt eps std mean)
      (fun o => Real.sqrt (std o ^ 2 + eps)) o = 1 := by
    intro o
    exact div_self (Real.sqrt_pos.2 (by positivity)).ne'
  rw [refuseBN, hb]
  simp only [reconstructBN] at hs ⊢
  rw [foldKernel_one c hs]
  cases c
  simp only [Option.some.injEq, Conv.mk.injEq, true_and, hs] at hb ⊢
  rw [hb, Option.some.injEq]
  funext o; ring

/-- **C34**, when the statistics of the batch normalisation have been corrected in between: folding it
back gives a layer that computes the corrected batch normalisation of the layer (for the layers of
C32). -/
theorem C34_refused_corrected_partial {K : Type*} [Field K] {c c' : Conv K} (hv : c.Valid)
    (hkind : c.kind = .torchTranspose → c.groups = 1 ∨ c.groups = c.cin)
    (sqrt : K → K) {n : BN K} (h : refuseBN sqrt c n = some c')
    (src : P → Nat → Option P) (X : Nat → P → K) {o : Nat} (ho : o < c.cout) (p : P) :
    c'.out src X o p = n.out sqrt (c.out src X) o p := by
  rw [← C32_folded_layer_partial hv hkind sqrt n src X ho p]
  rw [refuseBN] at h
  split at h
  · rename_i b g be hb hg hbe
    simp only [Option.some.injEq] at h
    subst h
    rw [foldBN, hb, hbe]
    have : weightsScale sqrt n = refuseScale sqrt n g := by
      funext o; rw [weightsScale, hg]; rfl
    rw [this]; rfl
  · simp at h

/-- The bias must be there: a layer without one makes the refusing fail. -/
theorem C34_without_bias_fails {K : Type*} [Field K] {c : Conv K} (hb : c.bias = none) (sqrt : K → K)
    (n : BN K) : refuseBN sqrt c n = none := by
  rw [refuseBN, hb]

/-- A layer with a bias that meets the hypotheses. -/
example : depthwise2.bias = some (fun o : ℕ => (o : ℚ)) ∧
    (refuseBN id depthwise2 (reconstructBN id 1 (fun o => o) (fun o => 3))).isSome = true := by
  constructor
  · rfl
  · rfl

/-! ### C72 -/

section
variable {K : Type*} [Field K] [LinearOrder K] [IsStrictOrderedRing K] [FloorRing K]

/-- **C72**, symmetric: quantizing the refused kernel with the updated thresholds gives the quantized
kernel of the original layer times the scale of the batch normalisation, weight by weight, for every
number of bits. -/
theorem C72_symmetric {c c' : Conv K} (hv : c.Valid) (sqrt : K → K) {n : BN K} {g : Nat → K}
    (hg : n.gamma = some g) (h : refuseBN sqrt c n = some c') {th th' : Nat → K}
    (hth : refuseThreshold c (refuseScale sqrt n g) th = some th')
    (hpos : ∀ ch, 0 < g ch / sqrt (n.var ch + n.eps)) (bits : Nat) (j : Nat) :
    quantKernel c' bits th' j =
      (quantKernel c bits th j).map (· * (g (coord (kernelShape c) (outAxis c.kind) j) /
        sqrt (n.var (coord (kernelShape c) (outAxis c.kind) j) + n.eps))) := by
  rw [refuseBN] at h
  split at h
  · rename_i b g' be hb hg' hbe
    obtain rfl : g' = g := by rw [hg] at hg'; exact (Option.some.inj hg').symm
    simp only [Option.some.injEq] at h
    subst h
    simp only [quantKernel]
    rw [foldKernel_coord hv hth, refuseThreshold_eq hth]
    exact quantizeTensor_scale (hpos _) _ _ _ _
  · simp at h

/-- **C72**, uniform: the same for ranges. -/
theorem C72_uniform {c c' : Conv K} (hv : c.Valid) (sqrt : K → K) {n : BN K} {g : Nat → K}
    (hg : n.gamma = some g) (h : refuseBN sqrt c n = some c') {lo lo' hi hi' : Nat → K}
    (hlo : refuseThreshold c (refuseScale sqrt n g) lo = some lo')
    (hhi : refuseThreshold c (refuseScale sqrt n g) hi = some hi')
    (hpos : ∀ ch, 0 < g ch / sqrt (n.var ch + n.eps)) (bits : Nat) (j : Nat) :
    quantKernelUniform c' bits lo' hi' j =
      (quantKernelUniform c bits lo hi j).map (· * (g (coord (kernelShape c) (outAxis c.kind) j) /
        sqrt (n.var (coord (kernelShape c) (outAxis c.kind) j) + n.eps))) := by
  rw [refuseBN] at h
  split at h
  · rename_i b g' be hb hg' hbe
    obtain rfl : g' = g := by rw [hg] at hg'; exact (Option.some.inj hg').symm
    simp only [Option.some.injEq] at h
    subst h
    simp only [quantKernelUniform]
    rw [foldKernel_coord hv hlo, refuseThreshold_eq hlo, refuseThreshold_eq hhi]
    exact uniformQuantize_scale (hpos _) _ _ _ _
  · simp at h

/-- **C72**, what is meant by the quantized kernel: every weight is at the nearest value of the signed grid of the
threshold of its output channel. -/
theorem C72_nearest (c : Conv K) {bits : Nat} (hb : 1 ≤ bits) (th : Nat → K) (hth : ∀ o, 0 < th o) (j : Nat) :
    ∃ q, quantKernel c bits th j = some q ∧
      MCT.QuantSpec.Nearest (MCT.QuantSpec.SignedGrid (th (coord (kernelShape c) (outAxis c.kind) j)) bits)
        (c.kernel j) q := by
  obtain ⟨q, h1, h2, _⟩ := MCT.Quant.C05_signed_grid _ (hth (coord (kernelShape c) (outAxis c.kind) j)) bits hb (c.kernel j)
  exact ⟨q, h1, h2⟩

/-- **C72**, the layer: the refused layer with its kernel quantized by the updated thresholds computes
the corrected batch normalisation of the quantized original layer. -/
theorem C72_quantized_layer {c c' : Conv K} (hv : c.Valid) (sqrt : K → K) {n : BN K} {g : Nat → K}
    (hg : n.gamma = some g) (h : refuseBN sqrt c n = some c') {th th' : Nat → K}
    (hth : refuseThreshold c (refuseScale sqrt n g) th = some th')
    (hpos : ∀ ch, 0 < g ch / sqrt (n.var ch + n.eps)) (bits : Nat)
    {q q' : Nat → K} (hq : ∀ j, quantKernel c bits th j = some (q j))
    (hq' : ∀ j, quantKernel c' bits th' j = some (q' j))
    (src : P → Nat → Option P) (X : Nat → P → K) {o : Nat} (ho : o < c.cout) (p : P) :
    Conv.out { c' with kernel := q' } src X o p =
      n.out sqrt (Conv.out { c with kernel := q } src X) o p := by
  have hk : q' = foldKernel { c with kernel := q } (refuseScale sqrt n g) := by
    funext j
    have h1 := C72_symmetric hv sqrt hg h hth hpos bits j
    rw [hq j, hq' j, Option.map_some, Option.some.injEq] at h1
    have hv' : Conv.Valid { c with kernel := q } :=
      ⟨hv.cin, hv.cout, hv.groups, hv.groupsIn, hv.groupsOut, hv.depthwise, hv.ungrouped⟩
    have h2 := foldKernel_coord (c := { c with kernel := q }) hv' (scale := refuseScale sqrt n g)
      (th := th) (th' := th') hth (refuseScale sqrt n g) j
    rw [h2, h1]; rfl
  have hkind : c.kind = .torchTranspose → c.groups = 1 ∨ c.groups = c.cin := by
    intro hk
    have hgr := hv.groups
    simp only [refuseThreshold, hk] at hth
    split at hth
    · simp at hth
    · left; omega
  have hv' : Conv.Valid { c with kernel := q } :=
    ⟨hv.cin, hv.cout, hv.groups, hv.groupsIn, hv.groupsOut, hv.depthwise, hv.ungrouped⟩
  apply C34_refused_corrected_partial hv' hkind sqrt _ src X ho p
  rw [refuseBN] at h ⊢
  split at h
  · rename_i b g' be hb hg' hbe
    obtain rfl : g' = g := by rw [hg] at hg'; exact (Option.some.inj hg').symm
    simp only [Option.some.injEq] at h
    subst h
    simp only [hb, hg, hbe, Option.some.injEq, Conv.mk.injEq, true_and, and_true]
    exact hk.symm
  · simp at h

end

/-- The scale of a reconstructed batch normalisation is positive whatever its (non-negative) variance
has become: what C72 asks for. -/
theorem C72_scale_positive {eps : ℝ} (heps : 0 < eps) (std mean : Nat → ℝ) (var : Nat → ℝ)
    (hvar : ∀ o, 0 ≤ var o) (ch : Nat) :
    0 < Real.sqrt (std ch ^ 2 + eps) / Real.sqrt (var ch + eps) :=
  div_pos (Real.sqrt_pos.2 (by positivity)) (Real.sqrt_pos.2 (by have := hvar ch; linarith))

/-- A grouped Keras convolution with 4 bits, thresholds 8 and the scale 1/2. -/
def keras22b : Conv ℚ := { keras22 with bias := some (fun _ => 1) }
def halfBN : BN ℚ := ⟨some (fun _ => 1), some (fun _ => 0), fun _ => 0, fun _ => 1, 1⟩

example : keras22b.Valid ∧ (refuseBN id keras22b halfBN).isSome ∧
    (refuseThreshold keras22b (refuseScale id halfBN (fun _ => 1)) (fun _ => 8)).isSome ∧
    quantKernel keras22b 3 (fun _ => 8) 5 = some 4 ∧
    MCT.Quant.quantizeTensor (5 / 2 : ℚ) 4 3 true = some 2 := by
  refine ⟨⟨?_, ?_, ?_, ?_, ?_, ?_, ?_⟩, rfl, rfl, ?_, ?_⟩ <;> decide +kernel

/-- The thresholds cannot be updated for a grouped PyTorch transposed convolution: the library fails
there (the kernel itself can be folded when the layer is depthwise). -/
theorem C72_grouped_transpose_fails {K : Type*} [Field K] {c : Conv K} (hk : c.kind = .torchTranspose)
    (hg : 1 < c.groups) (scale th : Nat → K) : refuseThreshold c scale th = none := by
  simp [refuseThreshold, hk, hg]

end MCT.Subst
