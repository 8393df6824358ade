/-
The statistics scale equalization works with.

Source: /repo/model_compression_toolkit/core/common/substitutions/scale_equalization.py 30-75 (`fixed_mean_after_relu`,
`fixed_second_moment_after_relu`) and 138-160 (`calculate_scale_correction`).

Numbers are reals with the two infinities and NaN; the rounding of floats and the sign of zero are not modelled.
-/
import Mathlib.Probability.Distributions.Gaussian.Real
import Mathlib.MeasureTheory.Integral.IntegralEqImproper
import Mathlib.Analysis.SpecialFunctions.Gaussian.GaussianIntegral

set_option linter.unusedVariables false

namespace MCT.Rect

open MeasureTheory ProbabilityTheory Set Filter Topology

/-! ### Model -/

/-- A floating point number without rounding. -/
inductive Fl
  | fin (x : ℝ)
  | inf
  | ninf
  | nan

open Classical in
/-- An infinity with the sign of `a`, or of `-a`; NaN for zero. -/
noncomputable def Fl.signed (a : ℝ) (flip : Bool) : Fl :=
  if a = 0 then .nan else if (a < 0) ↔ flip = true then .inf else .ninf

/-- Multiplication of floats. -/
noncomputable def Fl.mul : Fl → Fl → Fl
  | .fin a, .fin b => .fin (a * b)
  | .fin a, .inf => .signed a false
  | .fin a, .ninf => .signed a true
  | .inf, .fin b => .signed b false
  | .ninf, .fin b => .signed b true
  | .inf, .inf => .inf
  | .ninf, .ninf => .inf
  | .inf, .ninf => .ninf
  | .ninf, .inf => .ninf
  | _, _ => .nan

/-- Addition of floats. -/
noncomputable def Fl.add : Fl → Fl → Fl
  | .fin a, .fin b => .fin (a + b)
  | .fin _, .inf => .inf
  | .inf, .fin _ => .inf
  | .fin _, .ninf => .ninf
  | .ninf, .fin _ => .ninf
  | .inf, .inf => .inf
  | .ninf, .ninf => .ninf
  | _, _ => .nan

/-- Subtraction of floats. -/
noncomputable def Fl.sub (a b : Fl) : Fl := a.add (Fl.mul (.fin (-1)) b)

open Classical in
/-- Division of floats: a number divided by zero is infinite, zero divided by zero is NaN. -/
noncomputable def Fl.div : Fl → Fl → Fl
  | .fin a, .fin b => if b = 0 then .signed a false else .fin (a / b)
  | .fin _, .inf => .fin 0
  | .fin _, .ninf => .fin 0
  | .inf, .fin b => if b = 0 then .inf else .signed b false
  | .ninf, .fin b => if b = 0 then .ninf else .signed b true
  | _, _ => .nan

open Classical in
/-- `np.sqrt`. -/
noncomputable def Fl.sqrt : Fl → Fl
  | .fin a => if a < 0 then .nan else .fin (Real.sqrt a)
  | .inf => .inf
  | _ => .nan

/-- `np.exp`. -/
noncomputable def Fl.exp : Fl → Fl
  | .fin a => .fin (Real.exp a)
  | .inf => .inf
  | .ninf => .fin 0
  | .nan => .nan

/-- The error function, `scipy.special.erf`. -/
noncomputable def erf (x : ℝ) : ℝ := 2 / Real.sqrt Real.pi * ∫ t in (0 : ℝ)..x, Real.exp (-t ^ 2)

/-- `scipy.special.erf` on floats. -/
noncomputable def Fl.erf : Fl → Fl
  | .fin a => .fin (Rect.erf a)
  | .inf => .fin 1
  | .ninf => .fin (-1)
  | .nan => .nan

/-- `np.minimum(x, 1.0)`: NaN stays NaN. -/
noncomputable def Fl.minOne : Fl → Fl
  | .fin a => .fin (min a 1)
  | .inf => .fin 1
  | .ninf => .ninf
  | .nan => .nan

/-- `np.abs`. -/
noncomputable def Fl.abs : Fl → Fl
  | .fin a => .fin |a|
  | .nan => .nan
  | _ => .inf

/-- `prob_const`, scale_equalization.py 45, 67. -/
noncomputable def probConst (std : Fl) : Fl :=
  (Fl.fin 1).div ((((Fl.fin 2).mul (std.mul std)).mul (.fin Real.pi)).sqrt)

/-- `np.exp(-1 * mean_pow_2 / (2 * variance))`, scale_equalization.py 47, 69. -/
noncomputable def expTerm (mu std : Fl) : Fl :=
  (((Fl.fin (-1)).mul (mu.mul mu)).div ((Fl.fin 2).mul (std.mul std))).exp

/-- `scipy.special.erf(erf_const) + 1`, scale_equalization.py 48-49, 70-71. -/
noncomputable def erfTerm (mu std : Fl) : Fl :=
  (mu.div ((Fl.fin (Real.sqrt 2)).mul std)).erf.add (.fin 1)

/-- `fixed_mean_after_relu`, scale_equalization.py 30-50. -/
noncomputable def fixedMean (mu std : Fl) : Fl :=
  (probConst std).mul
    (((((Fl.fin (Real.sqrt (Real.pi / 2))).mul std).mul mu).mul (erfTerm mu std)).add
      ((std.mul std).mul (expTerm mu std)))

/-- `fixed_second_moment_after_relu`, scale_equalization.py 53-73. -/
noncomputable def fixedSecond (mu std : Fl) : Fl :=
  (probConst std).mul
    (((((Fl.fin (Real.sqrt (Real.pi / 2))).mul std).mul ((mu.mul mu).add (std.mul std))).mul (erfTerm mu std)).add
      ((mu.mul (std.mul std)).mul (expTerm mu std)))

/-- `calculate_scale_correction`, scale_equalization.py 138-160, one channel: the mean and the deviation known of the outputs
of the layer, and the factor of the channel. -/
noncomputable def scaleCorrection (mean std : Fl) : Fl :=
  let s := std.abs
  let fixedStd := ((fixedSecond mean s).sub ((fixedMean mean s).mul (fixedMean mean s))).sqrt
  ((Fl.fin 1).div fixedStd).minOne

/-- `update_linear_nodes`, scale_equalization.py 122-129: a weight of the channel in the first kernel. -/
noncomputable def scaledFirst (w scale : Fl) : Fl := w.mul scale

/-- `update_linear_nodes`, scale_equalization.py 118-120: a weight of the channel in the second kernel. -/
noncomputable def scaledSecond (w scale : Fl) : Fl := w.div scale

/-- A batch normalization, one channel: its scale and offset, which can be switched off, the moving statistics, epsilon. -/
structure Bn where
  gamma : Option ℝ
  beta : Option ℝ
  mean : ℝ
  var : ℝ
  eps : ℝ

/-- The mean known of the outputs of a batch normalization; `_get_mean_std_outputs`, keras_node_prior_info.py 75-83,
pytorch_node_prior_info.py 62-69. -/
noncomputable def Bn.knownMean (b : Bn) : ℝ := b.beta.getD 0

/-- The deviation known of them, there. -/
noncomputable def Bn.knownStd (b : Bn) : ℝ :=
  match b.gamma with
  | none => 1
  | some g => |g|

/-! ### Specification -/

/-- What the batch normalization computes. -/
noncomputable def Bn.apply (b : Bn) (x : ℝ) : ℝ :=
  b.gamma.getD 1 * ((x - b.mean) / Real.sqrt (b.var + b.eps)) + b.beta.getD 0

/-- The outputs of a channel, normally distributed with mean `mu` and deviation `sigma`. -/
noncomputable def outputs (mu sigma : ℝ) : Measure ℝ := gaussianReal mu (Real.toNNReal (sigma ^ 2))

/-- The outputs after the activation. -/
def relu (x : ℝ) : ℝ := max 0 x

/-! ### Proofs -/

section
variable (mu sigma : ℝ) (hs : 0 < sigma)
include hs

/-- The density. -/
noncomputable def dens (x : ℝ) : ℝ := (Real.sqrt (2 * Real.pi * sigma ^ 2))⁻¹ * Real.exp (-(x - mu) ^ 2 / (2 * sigma ^ 2))

omit hs in
theorem pdf_eq : gaussianPDFReal mu (Real.toNNReal (sigma ^ 2)) = dens mu sigma := by
  rw [gaussianPDFReal_def, Real.coe_toNNReal _ (sq_nonneg sigma)]
  rfl

theorem v_ne : Real.toNNReal (sigma ^ 2) ≠ 0 := by
  have : 0 < sigma ^ 2 := by positivity
  exact (Real.toNNReal_pos.2 this).ne'

theorem dens_deriv (x : ℝ) : HasDerivAt (dens mu sigma) (-(x - mu) / sigma ^ 2 * dens mu sigma x) x := by
  have h1 : HasDerivAt (fun x : ℝ => -(x - mu) ^ 2 / (2 * sigma ^ 2)) (-(2 * (x - mu)) / (2 * sigma ^ 2)) x := by
    have h0 : HasDerivAt (fun x : ℝ => (x - mu) ^ 2) (2 * (x - mu)) x := by
      have h := ((hasDerivAt_id' x).sub_const mu).fun_pow 2
      simpa using h
    exact h0.fun_neg.div_const (2 * sigma ^ 2)
  have h2 := (h1.exp).const_mul (Real.sqrt (2 * Real.pi * sigma ^ 2))⁻¹
  refine h2.congr_deriv ?_
  have : sigma ≠ 0 := hs.ne'
  unfold dens
  field_simp

omit hs in
theorem integrable_of {f : ℝ → ℝ} (hv : Real.toNNReal (sigma ^ 2) ≠ 0)
    (h : Integrable f (outputs mu sigma)) : Integrable (fun x => dens mu sigma x * f x) := by
  unfold outputs at h
  rw [gaussianReal_of_var_ne_zero _ hv, integrable_withDensity_iff_integrable_smul'
    (measurable_gaussianPDF _ _) (ae_of_all _ fun _ => gaussianPDF_lt_top)] at h
  simpa only [toReal_gaussianPDF, pdf_eq, smul_eq_mul] using h

theorem int_pow (k : ℕ) : Integrable (fun x => dens mu sigma x * x ^ k) := by
  apply integrable_of mu sigma (v_ne sigma hs)
  have := (memLp_id_gaussianReal (μ := mu) (v := (Real.toNNReal (sigma ^ 2))) k).integrable_norm_pow'
  exact (integrable_norm_iff (by fun_prop)).1 (by simpa [outputs] using this)

theorem int_poly (a b c : ℝ) : Integrable (fun x => (a + b * x + c * x ^ 2) * dens mu sigma x) := by
  have h0 := (int_pow mu sigma hs 0).const_mul a
  have h1 := (int_pow mu sigma hs 1).const_mul b
  have h2 := (int_pow mu sigma hs 2).const_mul c
  refine ((h0.add h1).add h2).congr (ae_of_all _ fun x => ?_)
  simp only [Pi.add_apply]
  ring

theorem int_first : ∫ x in Ioi (0 : ℝ), (x - mu) * dens mu sigma x = sigma ^ 2 * dens mu sigma 0 := by
  have hd : ∀ x : ℝ, HasDerivAt (fun x => -sigma ^ 2 * dens mu sigma x) ((x - mu) * dens mu sigma x) x := by
    intro x
    refine ((dens_deriv mu sigma hs x).const_mul (-sigma ^ 2)).congr_deriv ?_
    have : sigma ≠ 0 := hs.ne'
    field_simp
  have hi : Integrable (fun x => (x - mu) * dens mu sigma x) :=
    (int_poly mu sigma hs (-mu) 1 0).congr (ae_of_all _ fun x => by ring)
  have hi0 : Integrable (fun x => -sigma ^ 2 * dens mu sigma x) :=
    (int_poly mu sigma hs (-sigma ^ 2) 0 0).congr (ae_of_all _ fun x => by ring)
  have hl := tendsto_zero_of_hasDerivAt_of_integrableOn_Ioi (a := 0) (fun x _ => hd x) hi.integrableOn hi0.integrableOn
  rw [integral_Ioi_of_hasDerivAt_of_tendsto' (fun x _ => hd x) hi.integrableOn hl]
  ring

theorem int_second : ∫ x in Ioi (0 : ℝ), (x * (x - mu) - sigma ^ 2) * dens mu sigma x = 0 := by
  have hd : ∀ x : ℝ, HasDerivAt (fun x => -sigma ^ 2 * (x * dens mu sigma x))
      ((x * (x - mu) - sigma ^ 2) * dens mu sigma x) x := by
    intro x
    refine (((hasDerivAt_id' x).fun_mul (dens_deriv mu sigma hs x)).const_mul (-sigma ^ 2)).congr_deriv ?_
    have : sigma ≠ 0 := hs.ne'
    field_simp
    ring
  have hi : Integrable (fun x => (x * (x - mu) - sigma ^ 2) * dens mu sigma x) :=
    (int_poly mu sigma hs (-sigma ^ 2) (-mu) 1).congr (ae_of_all _ fun x => by ring)
  have hi0 : Integrable (fun x => -sigma ^ 2 * (x * dens mu sigma x)) :=
    (int_poly mu sigma hs 0 (-sigma ^ 2) 0).congr (ae_of_all _ fun x => by ring)
  have hl := tendsto_zero_of_hasDerivAt_of_integrableOn_Ioi (a := 0) (fun x _ => hd x) hi.integrableOn hi0.integrableOn
  rw [integral_Ioi_of_hasDerivAt_of_tendsto' (fun x _ => hd x) hi.integrableOn hl]
  ring

omit hs in
theorem erf_deriv (x : ℝ) : HasDerivAt erf (2 / Real.sqrt Real.pi * Real.exp (-x ^ 2)) x := by
  have hc : Continuous fun t : ℝ => Real.exp (-t ^ 2) := by fun_prop
  exact (hc.integral_hasStrictDerivAt 0 x).hasDerivAt.const_mul _

omit hs in
theorem erf_neg (x : ℝ) : erf (-x) = -erf x := by
  unfold erf
  have h := intervalIntegral.integral_comp_neg (a := 0) (b := x) (fun t : ℝ => Real.exp (-t ^ 2))
  simp only [neg_zero, even_two, Even.neg_pow] at h
  rw [intervalIntegral.integral_symm, ← h]
  ring

omit hs in
theorem erf_lim : Tendsto erf atTop (𝓝 1) := by
  have hi : IntegrableOn (fun t : ℝ => Real.exp (-t ^ 2)) (Ioi 0) := by
    have := (integrable_exp_neg_mul_sq (b := 1) one_pos).integrableOn (s := Ioi 0)
    simpa using this
  have h := (intervalIntegral_tendsto_integral_Ioi 0 hi tendsto_id).const_mul (2 / Real.sqrt Real.pi)
  have hg := integral_gaussian_Ioi 1
  simp only [neg_mul, one_mul, div_one] at hg
  rw [hg] at h
  have hp : Real.sqrt Real.pi ≠ 0 := by positivity
  have : 2 / Real.sqrt Real.pi * (Real.sqrt Real.pi / 2) = 1 := by field_simp
  rw [this] at h
  exact h

theorem int_zero : ∫ x in Ioi (0 : ℝ), dens mu sigma x = (erf (mu / (Real.sqrt 2 * sigma)) + 1) / 2 := by
  have h2 : (0 : ℝ) < Real.sqrt 2 := by positivity
  have hd : ∀ x : ℝ, HasDerivAt (fun x => erf ((x - mu) / (Real.sqrt 2 * sigma)) / 2) (dens mu sigma x) x := by
    intro x
    have hin : HasDerivAt (fun x : ℝ => (x - mu) / (Real.sqrt 2 * sigma)) (1 / (Real.sqrt 2 * sigma)) x :=
      ((hasDerivAt_id' x).sub_const mu).div_const _
    refine (((erf_deriv _).comp x hin).div_const 2).congr_deriv ?_
    unfold dens
    have he : -((x - mu) / (Real.sqrt 2 * sigma)) ^ 2 = -(x - mu) ^ 2 / (2 * sigma ^ 2) := by
      rw [div_pow, mul_pow, Real.sq_sqrt (by norm_num : (0 : ℝ) ≤ 2)]
      ring
    have hq : Real.sqrt (2 * Real.pi * sigma ^ 2) = Real.sqrt 2 * Real.sqrt Real.pi * sigma := by
      rw [Real.sqrt_mul (by positivity), Real.sqrt_mul (by norm_num), Real.sqrt_sq hs.le]
    rw [he, hq]
    have hp : Real.sqrt Real.pi ≠ 0 := by positivity
    have := hs.ne'
    field_simp
  have hi : Integrable (dens mu sigma) :=
    (int_poly mu sigma hs 1 0 0).congr (ae_of_all _ fun x => by ring)
  have hl : Tendsto (fun x => erf ((x - mu) / (Real.sqrt 2 * sigma)) / 2) atTop (𝓝 (1 / 2)) := by
    refine (erf_lim.comp ?_).div_const 2
    exact (tendsto_atTop_add_const_right _ (-mu) tendsto_id).atTop_div_const (by positivity)
  rw [integral_Ioi_of_hasDerivAt_of_tendsto' (fun x _ => hd x) hi.integrableOn hl]
  have : (0 - mu) / (Real.sqrt 2 * sigma) = -(mu / (Real.sqrt 2 * sigma)) := by ring
  rw [this, erf_neg]
  ring

theorem int_one : ∫ x in Ioi (0 : ℝ), x * dens mu sigma x
    = mu * ((erf (mu / (Real.sqrt 2 * sigma)) + 1) / 2) + sigma ^ 2 * dens mu sigma 0 := by
  have i0 : Integrable fun x => mu * dens mu sigma x :=
    (int_poly mu sigma hs mu 0 0).congr (ae_of_all _ fun x => by ring)
  have i1 : Integrable fun x => (x - mu) * dens mu sigma x :=
    (int_poly mu sigma hs (-mu) 1 0).congr (ae_of_all _ fun x => by ring)
  rw [← int_zero mu sigma hs, ← int_first mu sigma hs, ← integral_const_mul, ← integral_add i0.integrableOn i1.integrableOn]
  congr 1
  funext x
  ring

theorem int_two : ∫ x in Ioi (0 : ℝ), x ^ 2 * dens mu sigma x
    = mu * (∫ x in Ioi (0 : ℝ), x * dens mu sigma x) + sigma ^ 2 * ((erf (mu / (Real.sqrt 2 * sigma)) + 1) / 2) := by
  have i0 : Integrable fun x => sigma ^ 2 * dens mu sigma x :=
    (int_poly mu sigma hs (sigma ^ 2) 0 0).congr (ae_of_all _ fun x => by ring)
  have i1 : Integrable fun x => mu * (x * dens mu sigma x) :=
    (int_poly mu sigma hs 0 mu 0).congr (ae_of_all _ fun x => by ring)
  have i2 : Integrable fun x => (x * (x - mu) - sigma ^ 2) * dens mu sigma x :=
    (int_poly mu sigma hs (-sigma ^ 2) (-mu) 1).congr (ae_of_all _ fun x => by ring)
  have h := int_second mu sigma hs
  have e : ∫ x in Ioi (0 : ℝ), x ^ 2 * dens mu sigma x
      = ∫ x in Ioi (0 : ℝ), ((mu * (x * dens mu sigma x) + sigma ^ 2 * dens mu sigma x)
          + (x * (x - mu) - sigma ^ 2) * dens mu sigma x) := by
    congr 1
    funext x
    ring
  have e2 : ∫ x in Ioi (0 : ℝ), ((mu * (x * dens mu sigma x) + sigma ^ 2 * dens mu sigma x)
          + (x * (x - mu) - sigma ^ 2) * dens mu sigma x)
      = (∫ x in Ioi (0 : ℝ), (mu * (x * dens mu sigma x) + sigma ^ 2 * dens mu sigma x))
        + ∫ x in Ioi (0 : ℝ), (x * (x - mu) - sigma ^ 2) * dens mu sigma x :=
    integral_add (i1.add i0).integrableOn i2.integrableOn
  rw [e, e2, h, add_zero, integral_add i1.integrableOn i0.integrableOn, integral_const_mul, integral_const_mul,
    int_zero mu sigma hs]

omit hs in
theorem outputs_int {f : ℝ → ℝ} (hv : Real.toNNReal (sigma ^ 2) ≠ 0) (g : ℝ → ℝ) (h0 : ∀ x ≤ 0, f x = 0)
    (h1 : ∀ x, 0 < x → f x = g x) :
    ∫ x, f x ∂(outputs mu sigma) = ∫ x in Ioi (0 : ℝ), g x * dens mu sigma x := by
  unfold outputs
  rw [integral_gaussianReal_eq_integral_smul hv, pdf_eq, ← integral_indicator measurableSet_Ioi]
  congr 1
  funext x
  by_cases hx : 0 < x
  · rw [Set.indicator_of_mem (Set.mem_Ioi.2 hx), h1 x hx, smul_eq_mul, mul_comm]
  · rw [Set.indicator_of_notMem (by simpa using hx), h0 x (not_lt.1 hx), smul_zero]

theorem moment_one : ∫ x, relu x ∂(outputs mu sigma)
    = mu * ((erf (mu / (Real.sqrt 2 * sigma)) + 1) / 2) + sigma ^ 2 * dens mu sigma 0 := by
  rw [outputs_int (f := relu) mu sigma (v_ne sigma hs) (fun x => x) (fun x hx => max_eq_left hx) (fun x hx => max_eq_right hx.le),
    int_one mu sigma hs]

theorem moment_two : ∫ x, relu x ^ 2 ∂(outputs mu sigma)
    = (mu ^ 2 + sigma ^ 2) * ((erf (mu / (Real.sqrt 2 * sigma)) + 1) / 2) + mu * sigma ^ 2 * dens mu sigma 0 := by
  rw [outputs_int mu sigma (v_ne sigma hs) (fun x => x ^ 2) (fun x hx => by simp [relu, max_eq_left hx])
    (fun x hx => by simp [relu, max_eq_right hx.le]), int_two mu sigma hs, int_one mu sigma hs]
  ring

omit hs in
theorem relu_memLp : MemLp relu 2 (outputs mu sigma) := by
  refine (memLp_id_gaussianReal (μ := mu) (v := Real.toNNReal (sigma ^ 2)) 2).mono ?_ (ae_of_all _ fun x => ?_)
  · exact (continuous_const.max continuous_id).aestronglyMeasurable
  · simp only [relu, id, Real.norm_eq_abs]
    rcases le_total x 0 with h | h
    · simp [max_eq_left h]
    · simp [max_eq_right h]

theorem relu_var_pos : 0 < Var[relu; outputs mu sigma] := by
  refine lt_of_le_of_ne (variance_nonneg _ _) fun h => ?_
  have : IsProbabilityMeasure (outputs mu sigma) := by unfold outputs; infer_instance
  have hc := ae_eq_integral_of_variance_eq_zero (relu_memLp mu sigma) h.symm
  have hl := (gaussianReal_absolutelyContinuous' mu (v_ne sigma hs)).ae_le hc
  have hne : ∀ a b : ℝ, a < b → ∃ x ∈ Ioo a b, relu x = ∫ x, relu x ∂(outputs mu sigma) := by
    intro a b hab
    by_contra hcon
    push Not at hcon
    have : volume (Ioo a b) = 0 := measure_mono_null (fun x hx => hcon x hx) (ae_iff.1 hl)
    simp at this
    linarith
  obtain ⟨x, hx, h1⟩ := hne 1 2 (by norm_num)
  obtain ⟨y, hy, h2⟩ := hne 3 4 (by norm_num)
  have : relu x = relu y := h1.trans h2.symm
  simp only [relu, max_eq_right (by linarith [hx.1] : (0 : ℝ) ≤ x), max_eq_right (by linarith [hy.1] : (0 : ℝ) ≤ y)] at this
  linarith [hx.2, hy.1]

theorem probConst_eq : probConst (.fin sigma) = .fin ((Real.sqrt (2 * Real.pi * sigma ^ 2))⁻¹) := by
  have hpos : (0 : ℝ) < 2 * (sigma * sigma) * Real.pi := by positivity
  have hq : Real.sqrt (2 * (sigma * sigma) * Real.pi) ≠ 0 := by positivity
  simp only [probConst, Fl.mul, Fl.sqrt, if_neg (not_lt.2 hpos.le), Fl.div, if_neg hq]
  rw [one_div, show 2 * (sigma * sigma) * Real.pi = 2 * Real.pi * sigma ^ 2 by ring]

theorem expTerm_eq : expTerm (.fin mu) (.fin sigma) = .fin (Real.exp (-(0 - mu) ^ 2 / (2 * sigma ^ 2))) := by
  have hpos : (2 : ℝ) * (sigma * sigma) ≠ 0 := by positivity
  simp only [expTerm, Fl.mul, Fl.div, if_neg hpos, Fl.exp]
  rw [show -1 * (mu * mu) / (2 * (sigma * sigma)) = -(0 - mu) ^ 2 / (2 * sigma ^ 2) by ring]

theorem erfTerm_eq : erfTerm (.fin mu) (.fin sigma) = .fin (erf (mu / (Real.sqrt 2 * sigma)) + 1) := by
  have hpos : Real.sqrt 2 * sigma ≠ 0 := by positivity
  simp only [erfTerm, Fl.mul, Fl.div, if_neg hpos, Fl.erf, Fl.add]

theorem const_half : (Real.sqrt (2 * Real.pi * sigma ^ 2))⁻¹ * (Real.sqrt (Real.pi / 2) * sigma) = 1 / 2 := by
  have hq : Real.sqrt (2 * Real.pi * sigma ^ 2) = 2 * (Real.sqrt (Real.pi / 2) * sigma) := by
    have e : 2 * Real.pi * sigma ^ 2 = (2 * (Real.sqrt (Real.pi / 2) * sigma)) ^ 2 := by
      rw [mul_pow, mul_pow, Real.sq_sqrt (by positivity)]
      ring
    rw [e, Real.sqrt_sq (by positivity)]
  rw [hq]
  have : Real.sqrt (Real.pi / 2) * sigma ≠ 0 := by positivity
  field_simp

theorem fixedMean_eq : fixedMean (.fin mu) (.fin sigma) = .fin (∫ x, relu x ∂(outputs mu sigma)) := by
  rw [moment_one mu sigma hs]
  have hc := const_half sigma hs
  simp only [fixedMean, probConst_eq sigma hs, expTerm_eq mu sigma hs, erfTerm_eq mu sigma hs, Fl.mul, Fl.add]
  congr 1
  unfold dens
  generalize (Real.sqrt (2 * Real.pi * sigma ^ 2))⁻¹ = c at hc ⊢
  generalize Real.sqrt (Real.pi / 2) = d at hc ⊢
  linear_combination mu * (erf (mu / (Real.sqrt 2 * sigma)) + 1) * hc

theorem fixedSecond_eq : fixedSecond (.fin mu) (.fin sigma) = .fin (∫ x, relu x ^ 2 ∂(outputs mu sigma)) := by
  rw [moment_two mu sigma hs]
  have hc := const_half sigma hs
  simp only [fixedSecond, probConst_eq sigma hs, expTerm_eq mu sigma hs, erfTerm_eq mu sigma hs, Fl.mul, Fl.add]
  congr 1
  unfold dens
  generalize (Real.sqrt (2 * Real.pi * sigma ^ 2))⁻¹ = c at hc ⊢
  generalize Real.sqrt (Real.pi / 2) = d at hc ⊢
  linear_combination (mu ^ 2 + sigma ^ 2) * (erf (mu / (Real.sqrt 2 * sigma)) + 1) * hc

end

theorem outputs_abs (mu s : ℝ) : outputs mu |s| = outputs mu s := by
  unfold outputs
  rw [sq_abs]

theorem correction_eq (mu s : ℝ) (hs : s ≠ 0) :
    scaleCorrection (.fin mu) (.fin s) = .fin (min (1 / Real.sqrt (Var[relu; outputs mu s])) 1) := by
  have hp : 0 < |s| := abs_pos.2 hs
  have hv := relu_var_pos mu |s| hp
  have : IsProbabilityMeasure (outputs mu |s|) := by unfold outputs; infer_instance
  have he := variance_eq_sub (relu_memLp mu |s|)
  have he' : (∫ x, relu x ^ 2 ∂(outputs mu |s|)) + -1 * ((∫ x, relu x ∂(outputs mu |s|)) * ∫ x, relu x ∂(outputs mu |s|))
      = Var[relu; outputs mu |s|] := by
    rw [he]
    simp only [Pi.pow_apply]
    ring
  have hq : Real.sqrt (Var[relu; outputs mu |s|]) ≠ 0 := by positivity
  simp only [scaleCorrection, Fl.abs, fixedMean_eq mu |s| hp, fixedSecond_eq mu |s| hp, Fl.mul, Fl.sub, Fl.add, he', Fl.sqrt,
    if_neg (not_lt.2 hv.le), Fl.div, if_neg hq, Fl.minOne]
  rw [outputs_abs]

/-! ### Properties -/

/-- **C153**, the mean: for outputs normally distributed with any mean and any positive deviation, the mean the library
computes is the mean of the outputs after the activation. -/
theorem C153_mean (mu sigma : ℝ) (hs : 0 < sigma) :
    fixedMean (.fin mu) (.fin sigma) = .fin (∫ x, max 0 x ∂(gaussianReal mu (Real.toNNReal (sigma ^ 2)))) :=
  fixedMean_eq mu sigma hs

/-- **C153**, the second moment: and the second moment it computes is theirs. -/
theorem C153_second (mu sigma : ℝ) (hs : 0 < sigma) :
    fixedSecond (.fin mu) (.fin sigma) = .fin (∫ x, (max 0 x) ^ 2 ∂(gaussianReal mu (Real.toNNReal (sigma ^ 2)))) :=
  fixedSecond_eq mu sigma hs

/-- **C153**, the factor: for any mean and any deviation but zero, the square root is taken of a positive number, the factor is
a positive number, the smaller of one and the inverse of the deviation of the outputs after the activation, and the deviation
after the channel is scaled is the smaller of one and that deviation. -/
theorem C153_scale (mu s : ℝ) (hs : s ≠ 0) :
    ∃ d c : ℝ, 0 < d ∧ d ^ 2 = Var[fun x => max 0 x; gaussianReal mu (Real.toNNReal (s ^ 2))] ∧
      scaleCorrection (.fin mu) (.fin s) = .fin c ∧ c = min (1 / d) 1 ∧ 0 < c ∧
      Var[fun x => max 0 (c * x); gaussianReal mu (Real.toNNReal (s ^ 2))] = (min d 1) ^ 2 := by
  have hv : 0 < Var[relu; outputs mu s] := by
    rw [← outputs_abs]
    exact relu_var_pos mu |s| (abs_pos.2 hs)
  have hd : 0 < Real.sqrt (Var[relu; outputs mu s]) := by positivity
  have hsq : Real.sqrt (Var[relu; outputs mu s]) ^ 2 = Var[relu; outputs mu s] := Real.sq_sqrt hv.le
  generalize hD : Real.sqrt (Var[relu; outputs mu s]) = d at hd hsq
  have hc : 0 < min (1 / d) 1 := lt_min (by positivity) one_pos
  refine ⟨d, min (1 / d) 1, hd, hsq, by rw [correction_eq mu s hs, hD], rfl, hc, ?_⟩
  have e : (fun x => max 0 (min (1 / d) 1 * x)) = fun x : ℝ => min (1 / d) 1 * relu x := by
    funext x
    rw [relu, mul_max_of_nonneg _ _ hc.le, mul_zero]
  rw [e, variance_const_mul]
  change _ * Var[relu; outputs mu s] = _
  rw [← hsq, ← mul_pow, min_mul_of_nonneg _ _ hd.le, one_mul, one_div, inv_mul_cancel₀ hd.ne', min_comm]

/-- **C153**, what is known: whatever the distribution of the inputs of a batch normalization, if its moving statistics are
theirs then the mean that is known is the mean of its outputs, and their variance is the square of the deviation that is known,
less the share of epsilon. -/
theorem C153_known {Ω : Type*} [MeasurableSpace Ω] {P : Measure Ω} [IsProbabilityMeasure P] {X : Ω → ℝ} (b : Bn)
    (hX : MemLp X 2 P) (hm : ∫ w, X w ∂P = b.mean) (hv : Var[X; P] = b.var) (he : 0 < b.var + b.eps) :
    ∫ w, b.apply (X w) ∂P = b.knownMean ∧
      Var[fun w => b.apply (X w); P] = b.knownStd ^ 2 * (1 - b.eps / (b.var + b.eps)) := by
  have hi : Integrable X P := hX.integrable (by norm_num)
  have e : (fun w => b.apply (X w)) = fun w =>
      (b.gamma.getD 1 / Real.sqrt (b.var + b.eps)) * X w
        + (b.beta.getD 0 - b.gamma.getD 1 / Real.sqrt (b.var + b.eps) * b.mean) := by
    funext w
    unfold Bn.apply
    ring
  rw [e]
  constructor
  · rw [integral_add (hi.const_mul _) (integrable_const _), integral_const_mul, hm, integral_const]
    simp [Bn.knownMean]
  · rw [variance_add_const (hi.const_mul _).aestronglyMeasurable, variance_const_mul, hv, div_pow,
      Real.sq_sqrt he.le]
    have hk : b.knownStd ^ 2 = b.gamma.getD 1 ^ 2 := by
      unfold Bn.knownStd
      cases b.gamma <;> simp
    rw [hk]
    have := he.ne'
    field_simp
    ring

/-- A batch normalization of inputs that take one value. -/
example : ∫ w, (Bn.mk (some 2) none 3 0 1).apply ((fun _ : ℝ => (3 : ℝ)) w) ∂(gaussianReal 0 1) = 0 :=
  (C153_known (Bn.mk (some 2) none 3 0 1) (memLp_const 3) (by simp) (by simp [variance, evariance]) (by norm_num)).1

/-- The statistics of a normal channel meet the hypotheses. -/
example : ∃ c : ℝ, scaleCorrection (.fin (-1)) (.fin 3) = .fin c ∧ 0 < c := by
  obtain ⟨d, c, -, -, h, -, hc, -⟩ := C153_scale (-1) 3 (by norm_num)
  exact ⟨c, h, hc⟩

/-- **C153**, no deviation: the factor of a channel whose deviation is zero (a batch normalization folded with a zero gamma)
is NaN whatever its mean, and so is every weight of the channel in the two kernels afterwards, though the channel is constant. -/
theorem C153_constant_violated (mu w : ℝ) :
    scaleCorrection (.fin mu) (.fin 0) = .nan ∧
      scaledFirst (.fin w) (scaleCorrection (.fin mu) (.fin 0)) = .nan ∧
      scaledSecond (.fin w) (scaleCorrection (.fin mu) (.fin 0)) = .nan := by
  have hm : fixedMean (.fin mu) (.fin 0) = .nan := by
    rcases lt_trichotomy mu 0 with h | h | h
    · have h2 : -(mu * mu) < 0 := by nlinarith
      simp [fixedMean, probConst, expTerm, erfTerm, Fl.mul, Fl.add, Fl.div, Fl.sqrt, Fl.exp, Fl.erf, Fl.signed, h, h.ne, h2]
    · simp [fixedMean, probConst, expTerm, erfTerm, Fl.mul, Fl.add, Fl.div, Fl.sqrt, Fl.exp, Fl.erf, Fl.signed, h]
    · have h2 : -(mu * mu) < 0 := by nlinarith
      simp [fixedMean, probConst, expTerm, erfTerm, Fl.mul, Fl.add, Fl.div, Fl.sqrt, Fl.exp, Fl.erf, Fl.signed, h.ne',
        not_lt.2 h.le, h2]
  have hf : scaleCorrection (.fin mu) (.fin 0) = .nan := by
    simp only [scaleCorrection, Fl.abs, abs_zero, hm]
    cases fixedSecond (.fin mu) (.fin 0) <;> simp [Fl.mul, Fl.sub, Fl.add, Fl.sqrt, Fl.div, Fl.minOne]
  rw [hf]
  simp [scaledFirst, scaledSecond, Fl.mul, Fl.div]

end MCT.Rect
