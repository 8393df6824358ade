/-
Early stopping of the estimation of Hessian scores, and its bias.

Sources (under /repo/model_compression_toolkit):
  core/keras/hessian/activation_hessian_scores_calculator_keras.py 95-152   the loop
  core/keras/hessian/weights_hessian_scores_calculator_keras.py             the same
  core/pytorch/hessian/weights_hessian_scores_calculator_pytorch.py         the same
  constants.py 114-115                                                      10 and 1e-3
The model is that of `Verif.Hutch.Model`.
-/
import Verif.Hutch.Props
import Mathlib.Tactic.LinearCombination

namespace MCT.Hutch

set_option linter.unusedVariables false

section
variable {R : Type} [Field R] [LinearOrder R] [IsStrictOrderedRing R]

/-! ### A run of at most 13 vectors -/

theorem loop_start (nodes : ℕ) (size : ℕ → ℕ) (approx : ℕ → Scores R) (left j : ℕ) (hj : j ≤ 10)
    (prev : Option (ℕ → R)) :
    loop nodes size true approx (left + 1) j (meanOf approx j) prev =
      loop nodes size true approx left (j + 1) (meanOf approx (j + 1))
        (some (means size (meanOf approx (j + 1)))) := by
  conv_lhs => unfold loop
  dsimp only
  rw [update_mean]
  have : decide (minIter < j) = false := by
    rw [decide_eq_false_iff_not]
    unfold minIter
    omega
  simp [this]

theorem estimate_13 (nodes : ℕ) (size : ℕ → ℕ) (approx : ℕ → Scores R) :
    (estimate nodes size true approx 13).1 =
      if settled nodes size (means size (meanOf approx 11)) (meanOf approx 12) then meanOf approx 12
      else meanOf approx 13 := by
  have h0 : (fun _ _ => 0 : Scores R) = meanOf approx 0 := by
    funext k i; simp [meanOf]
  unfold estimate
  rw [h0]
  rw [loop_start _ _ _ 12 0 (by omega), loop_start _ _ _ 11 1 (by omega), loop_start _ _ _ 10 2 (by omega),
    loop_start _ _ _ 9 3 (by omega), loop_start _ _ _ 8 4 (by omega), loop_start _ _ _ 7 5 (by omega),
    loop_start _ _ _ 6 6 (by omega), loop_start _ _ _ 5 7 (by omega), loop_start _ _ _ 4 8 (by omega),
    loop_start _ _ _ 3 9 (by omega), loop_start _ _ _ 2 10 (by omega)]
  unfold loop
  dsimp only
  rw [update_mean]
  have h11 : decide (minIter < 11) = true := rfl
  by_cases h : settled nodes size (means size (meanOf approx 11)) (meanOf approx 12) = true
  · simp [h11, h]
  · simp only [h11, Option.elim, Bool.true_and, h, Bool.and_false, Bool.false_eq_true, if_false, if_true]
    unfold loop
    dsimp only
    rw [update_mean]
    split
    · rfl
    · unfold loop
      rfl

/-! ### Stopping where the mean is larger -/

/-- A rule that stops more readily where the mean is above its expectation makes the result too large on
average. -/
theorem sum_stop {Ω : Type} [Fintype Ω] (M L : Ω → R) (s : R) (P : Ω → Prop) [DecidablePred P]
    (F1 F2 : Ω → Ω) (h1 : Function.Involutive F1) (h2 : Function.Involutive F2)
    (hM2 : ∀ v, M (F2 v) = M v) (hP2 : ∀ v, P (F2 v) ↔ P v) (hL2 : ∀ v, L v + L (F2 v) = 2 * s)
    (hM1 : ∀ v, M v + M (F1 v) = 2 * s) (hmono : ∀ v, s ≤ M v → P (F1 v) → P v) :
    0 ≤ ∑ v, (if P v then M v - L v else 0) ∧
    ((∃ v, s < M v ∧ P v ∧ ¬ P (F1 v)) → 0 < ∑ v, (if P v then M v - L v else 0)) := by
  have e2 : ∑ v, (if P v then M v - L v else 0) = ∑ v, (if P v then M v - s else 0) := by
    have h := (Equiv.sum_comp h2.toPerm (fun v => if P v then M v - L v else 0)).symm
    have hd : 2 * ∑ v, (if P v then M v - L v else 0) = 2 * ∑ v, (if P v then M v - s else 0) := by
      rw [two_mul]
      conv_lhs => rw [h]
      conv_lhs => arg 2; rw [← h]
      rw [← Finset.sum_add_distrib, Finset.mul_sum]
      apply Finset.sum_congr rfl
      intro v _
      have hF : (h2.toPerm : Ω → Ω) v = F2 v := rfl
      rw [hF]
      by_cases hp : P v
      · rw [if_pos hp, if_pos ((hP2 v).mpr hp), if_pos hp, hM2]
        linear_combination (-1 : R) * hL2 v
      · rw [if_neg hp, if_neg (fun h => hp ((hP2 v).mp h)), if_neg hp]
        ring
    have h20 : (2 : R) ≠ 0 := two_ne_zero
    exact mul_left_cancel₀ h20 hd
  have e1 : 2 * ∑ v, (if P v then M v - s else 0) =
      ∑ v, ((if P v then M v - s else 0) + (if P (F1 v) then M (F1 v) - s else 0)) := by
    rw [Finset.sum_add_distrib, two_mul]
    congr 1
    exact (Equiv.sum_comp h1.toPerm (fun v => if P v then M v - s else 0)).symm
  have hnn : ∀ v, 0 ≤ (if P v then M v - s else 0) + (if P (F1 v) then M (F1 v) - s else 0) := by
    intro v
    have hm := hM1 v
    rcases le_total s (M v) with h | h
    · have hmo := hmono v h
      by_cases hf : P (F1 v)
      · rw [if_pos (hmo hf), if_pos hf]; linarith
      · rw [if_neg hf]
        split <;> linarith
    · have hmo := hmono (F1 v) (by linarith)
      rw [h1 v] at hmo
      by_cases hp : P v
      · rw [if_pos (hmo hp), if_pos hp]; linarith
      · rw [if_neg hp]
        split <;> linarith
  rw [e2]
  constructor
  · have := Finset.sum_nonneg (fun v (_ : v ∈ Finset.univ) => hnn v)
    linarith
  · rintro ⟨v, hv, hp, hnp⟩
    have : 0 < ∑ v, ((if P v then M v - s else 0) + (if P (F1 v) then M (F1 v) - s else 0)) := by
      apply Finset.sum_pos' (fun v _ => hnn v)
      refine ⟨v, Finset.mem_univ v, ?_⟩
      rw [if_pos hp, if_neg hnp]
      linarith
    linarith

/-! ### Two outputs -/

/-- A tensor of one element and two outputs with derivatives `a` and `b`. -/
def twoOutputs (a b : R) : Fin 2 → Unit → R := fun k _ => if k = 0 then a else b

/-- The approximation of vector `t`. -/
def draw (a b : R) (vs : Fin 13 → Fin 2 → Bool) (t : ℕ) : R :=
  if h : t < 13 then elementScore (grad 1 (twoOutputs a b) (vs ⟨t, h⟩)) () else 0

theorem draw_nonneg (a b : R) (vs : Fin 13 → Fin 2 → Bool) (t : ℕ) : 0 ≤ draw a b vs t := by
  unfold draw
  split
  · exact sq_nonneg _
  · exact le_rfl

/-- Flipping the first sign of some of the vectors. -/
def flips (p : ℕ → Bool) (vs : Fin 13 → Fin 2 → Bool) : Fin 13 → Fin 2 → Bool :=
  fun t => if p t.val then flip 0 (vs t) else vs t

theorem flips_flips (p : ℕ → Bool) : Function.Involutive (flips p) := by
  intro vs
  funext t
  unfold flips
  by_cases h : p t.val = true
  · simp only [h, if_true, flip_flip]
  · simp only [h, if_false, Bool.false_eq_true]

theorem draw_flips (a b : R) (p : ℕ → Bool) (vs : Fin 13 → Fin 2 → Bool) {t : ℕ} (ht : t < 13) :
    draw a b (flips p vs) t = if p t then 2 * (a ^ 2 + b ^ 2) - draw a b vs t else draw a b vs t := by
  unfold draw flips
  simp only [dif_pos ht]
  by_cases h : p t = true
  · simp only [h, if_true, elementScore, grad, Fin.sum_univ_two, twoOutputs, flip]
    cases h0 : vs ⟨t, ht⟩ 0 <;> cases h1 : vs ⟨t, ht⟩ 1 <;> simp [sgn, h0, h1] <;> ring
  · simp only [h, if_false, Bool.false_eq_true]

def mean (x : ℕ → R) (n : ℕ) : R := (∑ t ∈ Finset.range n, x t) / (n : R)

/-- The test for stopping, for one number. -/
def stops (x : ℕ → R) : Prop := |mean x 12 - mean x 11| / (|mean x 12| + 1 / 1000000) < 1 / 1000

instance (x : ℕ → R) : Decidable (stops x) := by unfold stops; infer_instance

theorem estimate_one (x : ℕ → R) :
    (estimate 1 (fun _ => 1) true (fun t _ _ => x t) 13).1 0 0 =
      if stops x then mean x 12 else mean x 13 := by
  rw [estimate_13]
  have hs : settled 1 (fun _ => 1) (means (fun _ => 1) (meanOf (fun t _ _ => x t) 11))
      (meanOf (fun t _ _ => x t) 12) = true ↔ stops x := by
    unfold settled stops means meanOf mean
    simp
  by_cases h : stops x
  · rw [if_pos (hs.mpr h), if_pos h]; rfl
  · rw [if_neg (fun h' => h (hs.mp h')), if_neg h]; rfl

theorem mean_first (a b : R) (vs : Fin 13 → Fin 2 → Bool) {n : ℕ} (hn : n ≤ 12) (h0 : 0 < n) :
    mean (draw a b (flips (fun t => decide (t < 12)) vs)) n
      = 2 * (a ^ 2 + b ^ 2) - mean (draw a b vs) n := by
  unfold mean
  have : ∑ t ∈ Finset.range n, draw a b (flips (fun t => decide (t < 12)) vs) t
      = (n : R) * (2 * (a ^ 2 + b ^ 2)) - ∑ t ∈ Finset.range n, draw a b vs t := by
    rw [Finset.sum_congr rfl (g := fun t => 2 * (a ^ 2 + b ^ 2) - draw a b vs t)]
    · simp
    · intro t ht
      have := Finset.mem_range.mp ht
      rw [draw_flips a b _ vs (by omega)]
      simp only [decide_eq_true_eq]
      rw [if_pos (by omega)]
  rw [this]
  have : (n : R) ≠ 0 := Nat.cast_ne_zero.mpr h0.ne'
  field_simp

theorem mean_last (a b : R) (vs : Fin 13 → Fin 2 → Bool) {n : ℕ} (hn : n ≤ 12) :
    mean (draw a b (flips (fun t => decide (t = 12)) vs)) n = mean (draw a b vs) n := by
  unfold mean
  congr 1
  apply Finset.sum_congr rfl
  intro t ht
  have := Finset.mem_range.mp ht
  rw [draw_flips a b _ vs (by omega)]
  simp only [decide_eq_true_eq]
  rw [if_neg (by omega)]

theorem mean_nonneg (a b : R) (vs : Fin 13 → Fin 2 → Bool) (n : ℕ) : 0 ≤ mean (draw a b vs) n :=
  div_nonneg (Finset.sum_nonneg fun t _ => draw_nonneg a b vs t) (Nat.cast_nonneg n)

theorem mean_13 (x : ℕ → R) : 13 * mean x 13 = 12 * mean x 12 + x 12 := by
  unfold mean
  rw [Finset.sum_range_succ]
  push_cast
  field_simp

/-- The mean over all vectors of the score of a run with early stopping, compared with what it
estimates. -/
theorem bias (a b : R) :
    let s := fun vs => draw a b vs
    a ^ 2 + b ^ 2 ≤ expect (fun vs : Fin 13 → Fin 2 → Bool =>
      if stops (s vs) then mean (s vs) 12 else mean (s vs) 13) ∧
    ((∃ vs, a ^ 2 + b ^ 2 < mean (s vs) 12 ∧ stops (s vs) ∧
        ¬ stops (s (flips (fun t => decide (t < 12)) vs))) →
      a ^ 2 + b ^ 2 < expect (fun vs : Fin 13 → Fin 2 → Bool =>
        if stops (s vs) then mean (s vs) 12 else mean (s vs) 13)) := by
  intro s
  have key := sum_stop (Ω := Fin 13 → Fin 2 → Bool) (fun vs => mean (s vs) 12) (fun vs => s vs 12)
    (a ^ 2 + b ^ 2) (fun vs => stops (s vs)) (flips (fun t => decide (t < 12)))
    (flips (fun t => decide (t = 12))) (flips_flips _) (flips_flips _)
    (fun vs => mean_last a b vs le_rfl)
    (fun vs => by
      simp only [s, stops, mean_last a b vs (le_refl 12), mean_last a b vs (by omega : 11 ≤ 12)])
    (fun vs => by
      simp only [s]
      rw [draw_flips a b _ vs (by omega)]
      simp)
    (fun vs => by
      simp only [s]
      rw [mean_first a b vs le_rfl (by omega)]
      ring)
    (fun vs hle hst => by
      simp only [s, stops] at hle hst ⊢
      rw [mean_first a b vs le_rfl (by omega), mean_first a b vs (by omega : 11 ≤ 12) (by omega)] at hst
      have hn := mean_nonneg a b (flips (fun t => decide (t < 12)) vs) 12
      rw [mean_first a b vs le_rfl (by omega)] at hn
      rw [abs_of_nonneg hn] at hst
      rw [abs_of_nonneg (mean_nonneg a b vs 12)]
      have e : |2 * (a ^ 2 + b ^ 2) - mean (draw a b vs) 12
          - (2 * (a ^ 2 + b ^ 2) - mean (draw a b vs) 11)|
          = |mean (draw a b vs) 12 - mean (draw a b vs) 11| := by
        rw [← abs_neg]
        congr 1
        ring
      rw [e] at hst
      refine lt_of_le_of_lt ?_ hst
      apply div_le_div_of_nonneg_left (abs_nonneg _)
      · have : (0 : R) < 1 / 1000000 := by positivity
        linarith
      · linarith)
  have hfull : ∑ vs, mean (s vs) 13 = ((Fintype.card (Fin 13 → Fin 2 → Bool) : ℕ) : R) * (a ^ 2 + b ^ 2) := by
    have hf : ∀ vs, mean (s (flips (fun _ => true) vs)) 13 = 2 * (a ^ 2 + b ^ 2) - mean (s vs) 13 := by
      intro vs
      simp only [s, mean]
      have : ∑ t ∈ Finset.range 13, draw a b (flips (fun _ => true) vs) t
          = ((13 : ℕ) : R) * (2 * (a ^ 2 + b ^ 2)) - ∑ t ∈ Finset.range 13, draw a b vs t := by
        rw [Finset.sum_congr rfl (g := fun t => 2 * (a ^ 2 + b ^ 2) - draw a b vs t)]
        · simp
        · intro t ht
          rw [draw_flips a b _ vs (Finset.mem_range.mp ht)]
          simp
      rw [this]
      push_cast
      field_simp
    have h := Equiv.sum_comp (flips_flips (fun _ => true)).toPerm (fun vs => mean (s vs) 13)
    have h' : ∑ vs, mean (s vs) 13 = ∑ vs, (2 * (a ^ 2 + b ^ 2) - mean (s vs) 13) := by
      rw [← h]
      exact Finset.sum_congr rfl fun vs _ => hf vs
    rw [Finset.sum_sub_distrib, Finset.sum_const, Finset.card_univ, nsmul_eq_mul] at h'
    linarith
  have hsplit : ∑ vs, (if stops (s vs) then mean (s vs) 12 else mean (s vs) 13)
      = ∑ vs, mean (s vs) 13 + (∑ vs, (if stops (s vs) then mean (s vs) 12 - s vs 12 else 0)) / 13 := by
    rw [Finset.sum_div, ← Finset.sum_add_distrib]
    apply Finset.sum_congr rfl
    intro vs _
    have := mean_13 (s vs)
    split
    · linarith
    · simp
  have hcard : (0 : R) < ((Fintype.card (Fin 13 → Fin 2 → Bool) : ℕ) : R) := by
    exact_mod_cast Fintype.card_pos
  unfold expect
  rw [hsplit, hfull]
  constructor
  · rw [le_div_iff₀ hcard]
    linarith [key.1]
  · intro hex
    rw [lt_div_iff₀ hcard]
    linarith [key.2 hex]

/-- C121, early stopping: with at most 13 vectors, for a network with two outputs, the mean of the score
over all random vectors is never smaller than what it should estimate. -/
theorem C121_stopping_above (a b : R) :
    squares (twoOutputs a b) () ≤ expect (fun vs : Fin 13 → Fin 2 → Bool =>
      (estimate 1 (fun _ => 1) true (fun t _ _ =>
        if h : t < 13 then elementScore (grad 1 (twoOutputs a b) (vs ⟨t, h⟩)) () else 0) 13).1 0 0) := by
  have h := (bias a b).1
  have hs : squares (twoOutputs a b) () = a ^ 2 + b ^ 2 := by
    simp [squares, twoOutputs, Fin.sum_univ_two]
  rw [hs]
  refine le_of_le_of_eq h ?_
  congr 1
  funext vs
  exact (estimate_one (draw a b vs)).symm

end

/-- All vectors but the first give the larger score. -/
def vsEx : Fin 13 → Fin 2 → Bool := fun t k => decide (t = 0 ∧ k = 0) || decide (t ≠ 0)

/-- C121, violated with early stopping: the scores are not unbiased.  For a network with two outputs
whose derivatives are 1 and 0.033, a run of at most 13 vectors gives too large a score on average. -/
theorem C121_stopping_violated :
    squares (twoOutputs (1 : ℚ) (33 / 1000)) () < expect (fun vs : Fin 13 → Fin 2 → Bool =>
      (estimate 1 (fun _ => 1) true (fun t _ _ =>
        if h : t < 13 then elementScore (grad 1 (twoOutputs (1 : ℚ) (33 / 1000)) (vs ⟨t, h⟩)) () else 0)
          13).1 0 0) := by
  have hs : squares (twoOutputs (1 : ℚ) (33 / 1000)) () = 1 ^ 2 + (33 / 1000) ^ 2 := by
    simp [squares, twoOutputs, Fin.sum_univ_two]
  rw [hs]
  refine lt_of_lt_of_eq ((bias (1 : ℚ) (33 / 1000)).2 ⟨vsEx, ?_, ?_, ?_⟩) ?_
  · decide +kernel
  · decide +kernel
  · decide +kernel
  · congr 1
    funext vs
    exact (estimate_one (draw (1 : ℚ) (33 / 1000) vs)).symm

end MCT.Hutch
