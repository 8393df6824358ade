/-
C116: cases that meet the hypotheses, and reports that are not what the user relies on.
-/
import Verif.XQuant.Metrics

namespace MCT.XQuant

/-- A metric on rationals: the difference. -/
def exMetrics : Dict (Metric ℚ ℚ) := [("diff", fun a b => some (a - b))]

/-- A float network of two layers, `conv` called twice, and `relu`. -/
def exFloat : Net ℚ ℚ where
  layers := ["", "conv", "relu", "fc"]
  wrapped := []
  calls x := [("conv", x + 1), ("relu", x + 1), ("conv", x + 2), ("fc", 2 * x)]
  out x := 2 * x

/-- A quantized network with three wrapped layers; `proj` is not in the float network. -/
def exQuant : Net ℚ ℚ where
  layers := ["", "conv", "conv.layer", "relu", "fc", "fc.layer", "proj"]
  wrapped := [("conv", "conv.layer"), ("proj", "proj.layer"), ("fc", "fc.layer")]
  calls x := [("conv", x), ("relu", x), ("conv", x + 1), ("proj", 0), ("fc", x)]
  out x := x

example : comparedLayers .torch exFloat exQuant = [("conv", "conv"), ("fc", "fc")] := by decide

/-- The report on two inputs. -/
example : compute .torch id exMetrics none exFloat exQuant [2, 4] =
    some ([("diff", 3)], [("conv", [("diff", 1)]), ("fc", [("diff", 3)])]) := by decide +kernel

/-- A metric of the user wins over the default one of its name. -/
example : compute .torch id exMetrics (some [("diff", fun a b => some (b - a)), ("prod", fun a b => some (a * b))])
    exFloat exQuant [2, 4] =
    some ([("diff", -3), ("prod", 20)],
      [("conv", [("diff", -1), ("prod", 21)]), ("fc", [("diff", -3), ("prod", 20)])]) := by decide +kernel

/-- The same networks in Keras, each layer called once. -/
def exKFloat : Net ℚ ℚ where
  layers := ["conv", "fc"]
  wrapped := []
  calls x := [("conv", x + 1), ("fc", 2 * x)]
  out x := 2 * x

def exKQuant : Net ℚ ℚ where
  layers := ["quant_conv", "quant_fc"]
  wrapped := [("quant_conv", "conv"), ("quant_fc", "fc")]
  calls x := [("quant_conv", x), ("quant_fc", x)]
  out x := x

example : compute .keras id exMetrics none exKFloat exKQuant [2, 4] =
    some ([("diff", 3)], [("quant_conv", [("diff", 1)]), ("quant_fc", [("diff", 3)])]) := by decide +kernel

/-- `C116_report` and `C116_report_exists` apply to it. -/
example : ∃ r, compute .keras id exMetrics none exKFloat exKQuant [2, 4] = some r := by
  apply C116_report_exists
  · decide
  · decide
  · decide
  · decide
  · decide
  · decide
  · decide
  · intro x _ k m hm
    by_cases e : k = "diff"
    · subst e
      simp [metricOf, exMetrics] at hm
      subst hm
      exact ⟨_, rfl⟩
    · have : (k == "diff") = false := by simpa using e
      simp [metricOf, exMetrics, List.lookup_cons, this] at hm
  · intro x _ p hp
    have hp' : p = ("conv", "quant_conv") ∨ p = ("fc", "quant_fc") := by
      have : comparedLayers .keras exKFloat exKQuant = [("conv", "quant_conv"), ("fc", "quant_fc")] := by decide
      rw [this] at hp
      simpa using hp
    have hmet : ∀ a b : ℚ, ∀ k m, metricOf exMetrics none k = some m → ∃ v, m a b = some v := by
      intro a b k m hm
      by_cases e : k = "diff"
      · subst e
        simp [metricOf, exMetrics] at hm
        subst hm
        exact ⟨_, rfl⟩
      · have : (k == "diff") = false := by simpa using e
        simp [metricOf, exMetrics, List.lookup_cons, this] at hm
    rcases hp' with rfl | rfl
    · exact ⟨x + 1, x, by simp [Observed, exKFloat], by simp [Observed, exKQuant], hmet _ _⟩
    · exact ⟨2 * x, x, by simp [Observed, exKFloat], by simp [Observed, exKQuant], hmet _ _⟩

/-- **C116, violated.** A layer with the name of the key of the output is compared by the output of the
network, not by its own output. -/
theorem C116_output_key_violated :
    ∃ f q : Net ℚ ℚ, comparedLayers .torch f q = [(outputKey, outputKey)] ∧
      (f.calls 1 = [(outputKey, 5)] ∧ q.calls 1 = [(outputKey, 7)]) ∧
      compute .torch id exMetrics none f q [1] =
        some ([("diff", 0)], [(outputKey, [("diff", 0)])]) :=
  ⟨{ layers := [outputKey], wrapped := [], calls := fun _ => [(outputKey, 5)], out := fun _ => 0 },
   { layers := [outputKey], wrapped := [(outputKey, "")], calls := fun _ => [(outputKey, 7)], out := fun _ => 0 },
   by decide, by decide, by decide +kernel⟩

/-- **C116, violated.** In Keras, when no layer can be compared, the outputs are compared by the last sample of
each batch only: here a batch is the list of its samples. -/
theorem C116_keras_last_sample_violated :
    ∃ (f q : Net Nat (List ℚ)) (m : Metric (List ℚ) ℚ), f.out 0 = [0, 5] ∧ q.out 0 = [9, 5] ∧
      m (f.out 0) (q.out 0) = some (-9) ∧
      compute .keras (fun t => t.drop (t.length - 1)) [("diff", m)] none f q [0] =
        some ([("diff", 0)], []) :=
  ⟨{ layers := ["fc"], wrapped := [], calls := fun _ => [], out := fun _ => [0, 5] },
   { layers := ["fc"], wrapped := [], calls := fun _ => [], out := fun _ => [9, 5] },
   fun a b => some (a.sum - b.sum), rfl, rfl, by decide +kernel, by decide +kernel⟩

/-- **C116, violated.** In Keras a compared layer that is called twice stops the report; in PyTorch the last
calls are compared. -/
theorem C116_shared_layer_violated :
    ∃ f q : Net ℚ ℚ, (∃ r, compute .torch id exMetrics none f q [1] = some r) ∧
      compute .keras id exMetrics none f q [1] = none :=
  ⟨{ layers := ["fc"], wrapped := [], calls := fun x => [("fc", x), ("fc", x + 1)], out := fun x => x },
   { layers := ["fc"], wrapped := [("fc", "fc")], calls := fun x => [("fc", x), ("fc", x + 1)],
     out := fun x => x },
   ⟨([("diff", 0)], [("fc", [("diff", 0)])]), by decide +kernel⟩, by decide +kernel⟩

end MCT.XQuant
