import Verif.Prior.Analysis

/-!
# What the layers compute

The functions of the layers and operators for which the toolkit knows bounds, as the frameworks document
them, on real inputs.  An input is a vector: the slice along the axis of a softmax, any set of elements for
the other functions, which act on each element.
-/

namespace MCT.PriorSpec

open Real

variable {ι : Type} [Fintype ι]

/-- Cumulative distribution of the standard normal: (1 + erf (x/√2)) / 2. -/
noncomputable def Phi (x : ℝ) : ℝ := 1 / 2 + (∫ s in (0 : ℝ)..x, exp (-(1 / 2) * s ^ 2)) / √(2 * π)

noncomputable def softmax (x : ι → ℝ) (i : ι) : ℝ := exp (x i) / ∑ j, exp (x j)

noncomputable def relu (x : ℝ) : ℝ := max x 0

noncomputable def relu6 (x : ℝ) : ℝ := min (max x 0) 6

noncomputable def elu (α x : ℝ) : ℝ := if 0 < x then x else α * (exp x - 1)

/-- The constants of SELU. -/
noncomputable def seluAlpha : ℝ := 1.6732632423543772848170429916717

noncomputable def seluScale : ℝ := 1.0507009873554804934193349852946

noncomputable def selu (x : ℝ) : ℝ := seluScale * elu seluAlpha x

noncomputable def silu (x : ℝ) : ℝ := x * (1 / (1 + exp (-x)))

noncomputable def gelu (x : ℝ) : ℝ := x * Phi x

noncomputable def geluTanh (x : ℝ) : ℝ := x * (1 / 2) * (1 + tanh (√(2 / π) * (x + 0.044715 * x ^ 3)))

noncomputable def softplus (x : ℝ) : ℝ := log (1 + exp x)

noncomputable def hardsigmoid (x : ℝ) : ℝ := if x ≤ -3 then 0 else if 3 ≤ x then 1 else x / 6 + 1 / 2

/-- Keras `ReLU(max_value, negative_slope, threshold)`: `max_value` from there on, the input from the threshold
on, `negative_slope * (x - threshold)` below. -/
noncomputable def kerasRelu (maxValue : Option ℝ) (slope threshold x : ℝ) : ℝ :=
  match maxValue with
  | some m => if m ≤ x then m else if threshold ≤ x then x else slope * (x - threshold)
  | none => if threshold ≤ x then x else slope * (x - threshold)

end MCT.PriorSpec
