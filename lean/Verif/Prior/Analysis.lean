import Mathlib.Analysis.SpecialFunctions.Gaussian.GaussianIntegral
import Mathlib.Analysis.SpecialFunctions.Sigmoid
import Mathlib.Analysis.Complex.ExponentialBounds
import Mathlib.Analysis.Real.Pi.Bounds
import Mathlib.MeasureTheory.Integral.IntegralEqImproper
import Mathlib.Analysis.SpecialFunctions.Integrals.Basic
import Mathlib.Analysis.Calculus.Deriv.MeanValue

/-!
# Lower bounds of activation functions

Facts about real functions used for the bounds of layer outputs (nothing of the code is modelled here).
-/

namespace MCT.Prior

open Real MeasureTheory Set

/-! ### x · sigmoid x -/

theorem exp_277 : (3.5843 : ℝ) ≤ exp 1.277 ∧ exp 1.277 ≤ 3.61 := by
  have h : exp (1.277 : ℝ) = exp 1 * exp 0.277 := by rw [← exp_add]; norm_num
  have l1 := exp_one_gt_d9
  have u1 := exp_one_lt_d9
  have l2 : (1.3191 : ℝ) ≤ exp 0.277 := by
    refine le_trans ?_ (Real.sum_le_exp_of_nonneg (by norm_num) 6)
    norm_num [Finset.sum_range_succ, Nat.factorial]
  have u2 : exp (0.277 : ℝ) ≤ 1.3193 := by
    refine le_trans (Real.exp_bound' (by norm_num) (by norm_num) (n := 6) (by norm_num)) ?_
    norm_num [Finset.sum_range_succ, Nat.factorial]
  rw [h]
  constructor <;> nlinarith

theorem silu_ge (x : ℝ) : -0.279 ≤ x * sigmoid x := by
  rcases le_or_gt 0 x with hx | hx
  · have := mul_nonneg hx (sigmoid_nonneg x); linarith
  · have hp : 0 < 1 + exp (-x) := by positivity
    rw [sigmoid_def, ← div_eq_mul_inv, le_div_iff₀ hp]
    obtain ⟨l, u⟩ := exp_277
    have h1 : exp (-x) = exp 1.277 * exp (-x - 1.277) := by rw [← exp_add]; ring_nf
    have h2 := add_one_le_exp (-x - 1.277)
    have h3 : exp 1.277 * (-x - 1.277 + 1) ≤ exp (-x) := by
      rw [h1]; exact mul_le_mul_of_nonneg_left h2 (exp_pos _).le
    nlinarith

/-! ### x · Φ(x) -/

/-- The integral of `exp (-s²/2)` from 0. -/
noncomputable def E (t : ℝ) : ℝ := ∫ s in (0 : ℝ)..t, exp (-(1 / 2) * s ^ 2)

theorem cont_e : Continuous fun s : ℝ => exp (-(1 / 2) * s ^ 2) := by fun_prop

theorem E_deriv (t : ℝ) : HasDerivAt E (exp (-(1 / 2) * t ^ 2)) t :=
  intervalIntegral.integral_hasDerivAt_right (cont_e.intervalIntegrable _ _)
    (cont_e.stronglyMeasurableAtFilter _ _) cont_e.continuousAt

theorem E_neg (t : ℝ) : E (-t) = -E t := by
  unfold E
  have h := intervalIntegral.integral_comp_neg (a := 0) (b := t) (fun s : ℝ => exp (-(1 / 2) * s ^ 2))
  rw [neg_zero] at h
  rw [intervalIntegral.integral_symm, ← h]
  simp

/-- Mills' inequality. -/
theorem mills {t : ℝ} (ht : 0 ≤ t) : t * (√(2 * π) / 2 - E t) ≤ exp (-(1 / 2) * t ^ 2) := by
  have hint : ∀ a : ℝ, IntegrableOn (fun s : ℝ => exp (-(1 / 2) * s ^ 2)) (Ioi a) := fun a =>
    (integrable_exp_neg_mul_sq (by norm_num)).integrableOn
  have hint2 : IntegrableOn (fun s : ℝ => s * exp (-(1 / 2) * s ^ 2)) (Ioi t) :=
    (integrable_mul_exp_neg_mul_sq (by norm_num)).integrableOn
  have h0 : √(2 * π) / 2 - E t = ∫ s in Ioi t, exp (-(1 / 2) * s ^ 2) := by
    have := intervalIntegral.integral_interval_add_Ioi (hint 0) (hint t)
    rw [integral_gaussian_Ioi] at this
    unfold E
    rw [show π / (1 / 2) = 2 * π by ring] at this
    linarith
  have h1 : (∫ s in Ioi t, s * exp (-(1 / 2) * s ^ 2)) = exp (-(1 / 2) * t ^ 2) := by
    have hd : ∀ x ∈ Ioi t, HasDerivAt (fun s : ℝ => -exp (-(1 / 2) * s ^ 2))
        (x * exp (-(1 / 2) * x ^ 2)) x := by
      intro x _
      have : HasDerivAt (fun s : ℝ => -(1 / 2) * s ^ 2) (-x) x :=
        ((hasDerivAt_pow 2 x).const_mul (-(1 / 2) : ℝ)).congr_deriv (by norm_num; ring)
      exact this.exp.neg.congr_deriv (by ring)
    have ht0 : Filter.Tendsto (fun s : ℝ => -exp (-(1 / 2) * s ^ 2)) Filter.atTop (nhds (-0)) := by
      apply Filter.Tendsto.neg
      apply tendsto_exp_atBot.comp
      apply Filter.Tendsto.const_mul_atTop_of_neg (by norm_num)
      exact Filter.tendsto_pow_atTop (by norm_num)
    have := integral_Ioi_of_hasDerivAt_of_tendsto (a := t) (by fun_prop) hd hint2 ht0
    rw [this]; ring
  rw [h0, ← h1, ← integral_const_mul]
  apply setIntegral_mono_on ((hint t).const_mul t) hint2 measurableSet_Ioi
  intro x hx
  exact mul_le_mul_of_nonneg_right (le_of_lt hx) (exp_pos _).le

theorem sqrt_two_pi : (2.506627 : ℝ) ≤ √(2 * π) ∧ √(2 * π) ≤ 2.506629 := by
  have h1 := pi_gt_d6
  have h2 := pi_lt_d6
  constructor
  · apply Real.le_sqrt_of_sq_le; norm_num; linarith
  · apply Real.sqrt_le_iff.2; constructor <;> norm_num; linarith

theorem exp_neg_bounds {u : ℝ} (h0 : 0 ≤ u) (h1 : u ≤ 1) :
    |exp (-u) - (1 - u + u ^ 2 / 2 - u ^ 3 / 6 + u ^ 4 / 24 - u ^ 5 / 120)| ≤ u ^ 6 / 600 := by
  have h := Real.exp_bound (x := -u) (by rw [abs_neg, abs_of_nonneg h0]; exact h1) (n := 6) (by norm_num)
  rw [abs_neg, abs_of_nonneg h0] at h
  have e : (∑ m ∈ Finset.range 6, (-u) ^ m / (m.factorial : ℝ)) =
      1 - u + u ^ 2 / 2 - u ^ 3 / 6 + u ^ 4 / 24 - u ^ 5 / 120 := by
    simp only [Finset.sum_range_succ, Finset.sum_range_zero, Nat.factorial]; push_cast; ring
  rw [e] at h
  refine h.trans ?_
  have : (0 : ℝ) ≤ u ^ 6 := by positivity
  norm_num [Nat.factorial]
  linarith

/-- An antiderivative of the Taylor polynomial with error term of sign `c`. -/
noncomputable def P (c t : ℝ) : ℝ :=
  t - t ^ 3 / 6 + t ^ 5 / 40 - t ^ 7 / 336 + t ^ 9 / 3456 - t ^ 11 / 42240 + c * t ^ 13 / (13 * 64 * 600)

theorem P_deriv (c t : ℝ) : HasDerivAt (P c)
    (1 - t ^ 2 / 2 + (t ^ 2 / 2) ^ 2 / 2 - (t ^ 2 / 2) ^ 3 / 6 + (t ^ 2 / 2) ^ 4 / 24 - (t ^ 2 / 2) ^ 5 / 120 +
      c * ((t ^ 2 / 2) ^ 6 / 600)) t := by
  unfold P
  have := (((((((hasDerivAt_id t).sub ((hasDerivAt_pow 3 t).div_const 6)).add
    ((hasDerivAt_pow 5 t).div_const 40)).sub ((hasDerivAt_pow 7 t).div_const 336)).add
    ((hasDerivAt_pow 9 t).div_const 3456)).sub ((hasDerivAt_pow 11 t).div_const 42240)).add
    (((hasDerivAt_pow 13 t).const_mul c).div_const (13 * 64 * 600)))
  exact this.congr_deriv (by norm_num; ring)

theorem E_bounds {t : ℝ} (h0 : 0 ≤ t) (h1 : t ≤ 1.4) : P (-1) t ≤ E t ∧ E t ≤ P 1 t := by
  have key : ∀ s ∈ Icc (0 : ℝ) 1.4, |exp (-(1 / 2) * s ^ 2) -
      (1 - s ^ 2 / 2 + (s ^ 2 / 2) ^ 2 / 2 - (s ^ 2 / 2) ^ 3 / 6 + (s ^ 2 / 2) ^ 4 / 24 -
        (s ^ 2 / 2) ^ 5 / 120)| ≤ (s ^ 2 / 2) ^ 6 / 600 := by
    intro s hs
    have := exp_neg_bounds (u := s ^ 2 / 2) (by positivity) (by nlinarith [hs.1, hs.2])
    rwa [show -(s ^ 2 / 2) = -(1 / 2) * s ^ 2 by ring] at this
  have hE0 : E 0 = 0 := by simp [E]
  have hP0 : ∀ c, P c 0 = 0 := by intro c; simp [P]
  have mono : ∀ f f' : ℝ → ℝ, (∀ s, HasDerivAt f (f' s) s) → (∀ s ∈ Icc (0 : ℝ) 1.4, 0 ≤ f' s) →
      f 0 ≤ f t := by
    intro f f' hd hp
    have : MonotoneOn f (Icc (0 : ℝ) 1.4) := by
      apply monotoneOn_of_deriv_nonneg (convex_Icc _ _)
      · exact fun s _ => (hd s).continuousAt.continuousWithinAt
      · exact fun s _ => (hd s).differentiableAt.differentiableWithinAt
      · intro s hs; rw [(hd s).deriv]; exact hp s (interior_subset hs)
    exact this ⟨le_rfl, by norm_num⟩ ⟨h0, h1⟩ h0
  constructor
  · have := mono (fun s => E s - P (-1) s) _ (fun s => (E_deriv s).sub (P_deriv (-1) s)) (by
      intro s hs
      have := abs_le.1 (key s hs)
      linarith [this.1])
    simp only [hE0, hP0] at this; linarith
  · have := mono (fun s => P 1 s - E s) _ (fun s => (P_deriv 1 s).sub (E_deriv s)) (by
      intro s hs
      have := abs_le.1 (key s hs)
      linarith [this.2])
    simp only [hE0, hP0] at this; linarith

/-- `0.17 √(2π) - t (√(2π)/2 - E t)` and its derivative. -/
noncomputable def G (t : ℝ) : ℝ := 0.17 * √(2 * π) - t * (√(2 * π) / 2 - E t)

noncomputable def G' (t : ℝ) : ℝ := t * exp (-(1 / 2) * t ^ 2) - (√(2 * π) / 2 - E t)

theorem G_deriv (t : ℝ) : HasDerivAt G (G' t) t := by
  have := ((hasDerivAt_id t).mul ((E_deriv t).const_sub (√(2 * π) / 2))).const_sub (0.17 * √(2 * π))
  exact this.congr_deriv (by simp only [G', id]; ring)

theorem G'_deriv (t : ℝ) : HasDerivAt G' ((2 - t ^ 2) * exp (-(1 / 2) * t ^ 2)) t := by
  have he : HasDerivAt (fun s : ℝ => exp (-(1 / 2) * s ^ 2)) (exp (-(1 / 2) * t ^ 2) * (-t)) t := by
    have h2 : HasDerivAt (fun s : ℝ => -(1 / 2) * s ^ 2) (-t) t :=
      ((hasDerivAt_pow 2 t).const_mul (-(1 / 2) : ℝ)).congr_deriv (by norm_num; ring)
    exact h2.exp
  have := ((hasDerivAt_id t).mul he).sub ((E_deriv t).const_sub (√(2 * π) / 2))
  exact this.congr_deriv (by simp only [id]; ring)

theorem G_nonneg_small {t : ℝ} (h0 : 0 ≤ t) (h1 : t ≤ 1.4) : 0 ≤ G t := by
  have hmono : MonotoneOn G' (Icc (0 : ℝ) 1.4) := by
    apply monotoneOn_of_deriv_nonneg (convex_Icc _ _)
    · exact fun s _ => (G'_deriv s).continuousAt.continuousWithinAt
    · exact fun s _ => (G'_deriv s).differentiableAt.differentiableWithinAt
    · intro s hs
      rw [(G'_deriv s).deriv]
      have := interior_subset hs
      exact mul_nonneg (by nlinarith [this.1, this.2]) (exp_pos _).le
  set a : ℝ := 0.7518 with ha
  have hE := E_bounds (t := a) (by norm_num [ha]) (by norm_num [ha])
  have hEl : (0.6866010 : ℝ) ≤ E a := le_trans (by norm_num [ha, P]) hE.1
  have hEu : E a ≤ 0.6866020 := le_trans hE.2 (by norm_num [ha, P])
  obtain ⟨hr1, hr2⟩ := sqrt_two_pi
  have hx := exp_neg_bounds (u := a ^ 2 / 2) (by positivity) (by norm_num [ha])
  rw [show -(a ^ 2 / 2) = -(1 / 2) * a ^ 2 by ring] at hx
  have hx' := abs_le.1 hx
  have hxl : (0.75381 : ℝ) ≤ exp (-(1 / 2) * a ^ 2) := by
    have : (0.75381 : ℝ) ≤ (1 - a ^ 2 / 2 + (a ^ 2 / 2) ^ 2 / 2 - (a ^ 2 / 2) ^ 3 / 6 + (a ^ 2 / 2) ^ 4 / 24 -
        (a ^ 2 / 2) ^ 5 / 120) - (a ^ 2 / 2) ^ 6 / 600 := by norm_num [ha]
    linarith [hx'.1]
  have hxu : exp (-(1 / 2) * a ^ 2) ≤ 0.75384 := by
    have : (1 - a ^ 2 / 2 + (a ^ 2 / 2) ^ 2 / 2 - (a ^ 2 / 2) ^ 3 / 6 + (a ^ 2 / 2) ^ 4 / 24 -
        (a ^ 2 / 2) ^ 5 / 120) + (a ^ 2 / 2) ^ 6 / 600 ≤ (0.75384 : ℝ) := by norm_num [ha]
    linarith [hx'.2]
  have hG : (0.00006 : ℝ) ≤ G a := by
    unfold G; rw [ha] at hEl ⊢; nlinarith
  have hG1 : -0.00004 ≤ G' a := by unfold G'; rw [ha] at *; nlinarith
  have hG2 : G' a ≤ 0.00004 := by unfold G'; rw [ha] at *; nlinarith
  set H : ℝ → ℝ := fun s => G s - G' a * (s - a) with hH
  have hHd : ∀ s, HasDerivAt H (G' s - G' a) s := by
    intro s
    have := (G_deriv s).sub (((hasDerivAt_id s).sub_const a).const_mul (G' a))
    exact this.congr_deriv (by ring)
  have hHc : ∀ S, ContinuousOn H S := fun S s _ => (hHd s).continuousAt.continuousWithinAt
  have hHdi : ∀ S, DifferentiableOn ℝ H S := fun S s _ => (hHd s).differentiableAt.differentiableWithinAt
  have haI : a ∈ Icc (0 : ℝ) 1.4 := by constructor <;> norm_num [ha]
  have hHa : H a = G a := by simp [hH]
  have hmin : G a ≤ H t := by
    rw [← hHa]
    rcases le_total t a with hta | hta
    · have : AntitoneOn H (Icc 0 a) := by
        apply antitoneOn_of_deriv_nonpos (convex_Icc _ _) (hHc _) (hHdi _)
        intro s hs
        rw [(hHd s).deriv]
        have := interior_subset hs
        linarith [hmono ⟨this.1, this.2.trans haI.2⟩ haI this.2]
      exact this ⟨h0, hta⟩ ⟨haI.1, le_rfl⟩ hta
    · have : MonotoneOn H (Icc a 1.4) := by
        apply monotoneOn_of_deriv_nonneg (convex_Icc _ _) (hHc _) (hHdi _)
        intro s hs
        rw [(hHd s).deriv]
        have := interior_subset hs
        linarith [hmono haI ⟨haI.1.trans this.1, this.2⟩ this.1]
      exact this ⟨le_rfl, haI.2⟩ ⟨hta, h1⟩ hta
  have hHt : H t = G t - G' a * (t - a) := rfl
  have : -(0.00006 : ℝ) ≤ G' a * (t - a) := by
    have ha1 : -0.7518 ≤ t - a := by rw [ha]; linarith
    have ha2 : t - a ≤ 0.7 := by rw [ha]; linarith
    have := abs_mul (G' a) (t - a)
    have hb : |G' a * (t - a)| ≤ 0.00004 * 0.7518 := by
      rw [this]
      exact mul_le_mul (abs_le.2 ⟨by linarith, hG2⟩) (abs_le.2 ⟨ha1, by linarith⟩) (abs_nonneg _) (by norm_num)
    have := (abs_le.1 hb).1
    linarith
  rw [hHt] at hmin
  clear_value a
  generalize G' a * (t - a) = z at hmin this
  linarith

theorem G_nonneg {t : ℝ} (h0 : 0 ≤ t) : 0 ≤ G t := by
  rcases le_total t 1.4 with h | h
  · exact G_nonneg_small h0 h
  · have hm := mills h0
    obtain ⟨hr1, hr2⟩ := sqrt_two_pi
    have he : exp (-(1 / 2) * t ^ 2) ≤ 0.42 := by
      have h1 : exp (-(1 / 2) * t ^ 2) ≤ exp (-(0.98 : ℝ)) := by
        apply exp_le_exp.2; nlinarith
      have h2 := abs_le.1 (exp_neg_bounds (u := 0.98) (by norm_num) (by norm_num))
      have h3 := h2.2
      norm_num at h3
      have h4 : exp (-(0.98 : ℝ)) ≤ 0.42 := by norm_num; linarith
      linarith
    unfold G
    linarith

theorem gelu_ge (x : ℝ) : -0.17 ≤ x * (1 / 2 + E x / √(2 * π)) := by
  obtain ⟨hr1, hr2⟩ := sqrt_two_pi
  have hr : (0 : ℝ) < √(2 * π) := by linarith
  have hmul : √(2 * π) * (x * (1 / 2 + E x / √(2 * π))) = x * (√(2 * π) / 2 + E x) := by
    field_simp
  have main : -0.17 * √(2 * π) ≤ x * (√(2 * π) / 2 + E x) := by
    rcases le_total 0 x with hx | hx
    · have hE : 0 ≤ E x := by
        unfold E
        exact intervalIntegral.integral_nonneg hx fun s _ => (exp_pos _).le
      have : 0 ≤ x * (√(2 * π) / 2 + E x) := by positivity
      linarith
    · have := G_nonneg (t := -x) (by linarith)
      unfold G at this
      rw [E_neg] at this
      linarith
  by_contra hlt
  push Not at hlt
  nlinarith

/-! ### The approximation of GELU with tanh -/

theorem geluTanh_witness :
    (-0.7524 : ℝ) * (1 / 2) * (1 + tanh (√(2 / π) * (-0.7524 + 0.044715 * (-0.7524) ^ 3))) < -0.17 := by
  have hs : √(2 / π) ≤ 0.79789 := by
    apply Real.sqrt_le_iff.2
    constructor
    · norm_num
    · rw [div_le_iff₀ pi_pos]
      have := pi_gt_d6
      nlinarith
  set w : ℝ := √(2 / π) * (0.7524 + 0.044715 * 0.7524 ^ 3) with hw
  have hw1 : 2 * w ≤ 1.2311 := by
    have : (0.7524 + 0.044715 * 0.7524 ^ 3 : ℝ) ≤ 0.771446 := by norm_num
    have h0 : 0 ≤ √(2 / π) := Real.sqrt_nonneg _
    nlinarith
  have hneg : √(2 / π) * (-0.7524 + 0.044715 * (-0.7524 : ℝ) ^ 3) = -w := by rw [hw]; ring
  have hx : exp (2 * w) < 3.4257 := by
    have h1 : exp (2 * w) ≤ exp (1.2311 : ℝ) := exp_le_exp.2 hw1
    have h : exp (1.2311 : ℝ) = exp 1 * exp 0.2311 := by rw [← exp_add]; norm_num
    have u1 := exp_one_lt_d9
    have u2 : exp (0.2311 : ℝ) ≤ 1.25999 := by
      refine le_trans (Real.exp_bound' (by norm_num) (by norm_num) (n := 7) (by norm_num)) ?_
      norm_num [Finset.sum_range_succ, Nat.factorial]
    have := exp_pos (0.2311 : ℝ)
    nlinarith
  have ht : 1 + tanh (-w) = 2 / (1 + exp (2 * w)) := by
    have hp : 0 < exp w := exp_pos w
    have e2 : exp (2 * w) = exp w * exp w := by rw [← exp_add]; ring_nf
    rw [tanh_eq_sinh_div_cosh, sinh_eq, cosh_eq, neg_neg, exp_neg, e2]
    have : exp w * exp w + 1 ≠ 0 := by positivity
    field_simp
    ring
  rw [hneg, ht]
  have hp : 0 < 1 + exp (2 * w) := by positivity
  rw [show (-0.7524 : ℝ) * (1 / 2) * (2 / (1 + exp (2 * w))) = -0.7524 / (1 + exp (2 * w)) by ring,
    div_lt_iff₀ hp]
  linarith

end MCT.Prior
