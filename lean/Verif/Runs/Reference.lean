/-
The network GPTQ learns from: which graph the statistics corrections change.

Sources (all under /repo/model_compression_toolkit):
  gptq/runner.py 36-70, 95-118                                         _apply_gptq, gptq_runner
  core/common/statistics_correction/statistics_correction.py 90-133    apply_statistics_correction
  core/common/statistics_correction/apply_second_moment_correction_to_graph.py 84-107  in place
  core/common/substitutions/apply_substitutions.py 20-38               in place
  core/common/statistics_correction/apply_bias_correction_to_graph.py 41-54  on a deep copy
  core/common/statistics_correction/apply_activation_bias_correction_to_graph.py 38-47  in place
  gptq/common/gptq_training.py 62-63, 80-85                            the two networks

What the corrections do to a graph is a parameter; graphs are objects that are passed by reference.
-/
import Verif.Subst.CorrectionProps

namespace MCT.Reference

set_option linter.unusedVariables false

variable {G : Type*}

/-! ## Model -/

/-- The graph objects, and references to them. -/
structure Heap (G : Type*) where
  next : Nat
  get : Nat → G

/-- Changing an object. -/
def Heap.update (h : Heap G) (r : Nat) (f : G → G) : Heap G :=
  ⟨h.next, fun r' => if r' = r then f (h.get r) else h.get r'⟩

/-- `copy.deepcopy`: a new object with the same contents. -/
def Heap.copy (h : Heap G) (r : Nat) : Heap G × Nat :=
  (⟨h.next + 1, fun r' => if r' = h.next then h.get r else h.get r'⟩, h.next)

/-- The corrections that are switched on. -/
structure Flags where
  second : Bool
  bias : Bool
  activation : Bool

/-- What the corrections do. -/
structure Fix (G : Type*) where
  second : G → G
  bias : G → G
  activation : G → G

/-- `apply_second_moment_correction_to_graph`: the new statistics are written into the nodes of the
graph, the substitutions and the new thresholds too. -/
def applySecond (x : Fix G) (h : Heap G) (r : Nat) : Heap G × Nat := (h.update r x.second, r)

/-- `apply_bias_correction_to_graph`: the nodes of a deep copy are changed. -/
def applyBias (x : Fix G) (h : Heap G) (r : Nat) : Heap G × Nat :=
  ((h.copy r).1.update (h.copy r).2 x.bias, (h.copy r).2)

/-- `apply_activation_bias_correction_to_graph`: the nodes of the graph are changed. -/
def applyActivation (x : Fix G) (h : Heap G) (r : Nat) : Heap G × Nat :=
  (h.update r x.activation, r)

/-- `apply_statistics_correction`, statistics_correction.py 107-133. -/
def applyStatistics (fl : Flags) (x : Fix G) (h : Heap G) (r : Nat) : Heap G × Nat :=
  let a := if fl.second then applySecond x h r else (h, r)
  let b := if fl.bias then applyBias x a.1 a.2 else a
  if fl.activation then applyActivation x b.1 b.2 else b

/-- `gptq_runner` up to the two networks: the graph that is given, which the corrections have seen, for
the network to learn from, and the corrected graph for the one that learns.
gptq/runner.py 101-116, gptq/common/gptq_training.py 62-63. -/
def networks (fl : Flags) (x : Fix G) (h : Heap G) (r : Nat) : G × G :=
  let c := applyStatistics fl x h r
  (c.1.get r, c.1.get c.2)

/-! ## Specification -/

/-- A correction if it is switched on. -/
def when' (b : Bool) (f : G → G) (g : G) : G := if b then f g else g

/-- What the corrected network should be. -/
def corrected (fl : Flags) (x : Fix G) (g : G) : G :=
  when' fl.activation x.activation (when' fl.bias x.bias (when' fl.second x.second g))

/-! ## Proofs -/

/-- C159: the network that learns is the float network with exactly the corrections that are switched
on, each applied once, in their order. -/
theorem C159_student (fl : Flags) (x : Fix G) (h : Heap G) (r : Nat) (hr : r < h.next) :
    (networks fl x h r).2 = corrected fl x (h.get r) := by
  obtain ⟨s, b, a⟩ := fl
  cases s <;> cases b <;> cases a <;>
    simp [networks, applyStatistics, applySecond, applyBias, applyActivation, Heap.update, Heap.copy,
      corrected, when']

/-- C159, the network to learn from, in all cases: it has the second moment correction, and the
activation bias correction when the bias correction is off. -/
theorem C159_teacher (fl : Flags) (x : Fix G) (h : Heap G) (r : Nat) (hr : r < h.next) :
    (networks fl x h r).1 =
      when' (fl.activation && !fl.bias) x.activation (when' fl.second x.second (h.get r)) := by
  have hne : ¬ r = h.next := by omega
  obtain ⟨s, b, a⟩ := fl
  cases s <;> cases b <;> cases a <;>
    simp [networks, applyStatistics, applySecond, applyBias, applyActivation, Heap.update, Heap.copy,
      when', hne]

/-- C159, as far as it holds: without second moment correction, and with bias correction whenever
activation bias correction is on (by default it is off), GPTQ learns from the float network. -/
theorem C159_float_partial (fl : Flags) (x : Fix G) (h : Heap G) (r : Nat) (hr : r < h.next)
    (h1 : fl.second = false) (h2 : fl.activation = true → fl.bias = true) :
    (networks fl x h r).1 = h.get r := by
  rw [C159_teacher fl x h r hr, h1]
  cases ha : fl.activation with
  | false => simp [when']
  | true => simp [when', h2 ha]

/-- C159, violated: with activation bias correction but without bias correction the network GPTQ
learns from has the correction as well; both networks are the same, and it is the float network only
if the correction changes nothing. -/
theorem C159_activation_violated (fl : Flags) (x : Fix G) (h : Heap G) (r : Nat) (hr : r < h.next)
    (h1 : fl.second = false) (h2 : fl.bias = false) (h3 : fl.activation = true) :
    (networks fl x h r).1 = (networks fl x h r).2 ∧
      ((networks fl x h r).1 = h.get r ↔ x.activation (h.get r) = h.get r) := by
  rw [C159_teacher fl x h r hr, C159_student fl x h r hr, h1, h2, h3]
  simp [corrected, when', h1, h2, h3]

/-- C159, violated: with second moment correction the network GPTQ learns from has it as well. -/
theorem C159_second_violated (fl : Flags) (x : Fix G) (h : Heap G) (r : Nat) (hr : r < h.next)
    (h1 : fl.second = true) (h2 : fl.activation = false) :
    (networks fl x h r).1 = x.second (h.get r) := by
  rw [C159_teacher fl x h r hr, h1, h2]
  simp [when']

section Layer
open MCT.Subst MCT.SubstSpec Finset
variable {K P : Type*} [Field K]

/-- C159, violated, the amount: when the graph is a layer with a kernel of one element, the outputs GPTQ
is to reproduce are those of the float layer minus the correction, for every input. -/
theorem C159_activation_amount_violated {c : Conv K} (hv : c.Valid)
    (hu : c.kind = .torchTranspose → c.groups = 1) (hk : c.kh = 1 ∧ c.kw = 1) (d : K) (x : Fix (Conv K))
    (hx : x.activation c = (activationCorrected c d).getD c) (fl : Flags) (h : Heap (Conv K)) (r : Nat)
    (hr : r < h.next) (hg : h.get r = c) (h1 : fl.second = false) (h2 : fl.bias = false)
    (h3 : fl.activation = true) (src : P → Nat → Option P) (X : Nat → P → K) {o : Nat}
    (ho : o < c.cout) (p : P) :
    (networks fl x h r).1.out src X o p
      = c.out src X o p - d * ∑ i ∈ range c.cin, c.weight o i 0 := by
  rw [C159_teacher fl x h r hr, h1, h2, h3, hg]
  simp only [when', Bool.not_false, Bool.and_self, if_true, Bool.false_eq_true, if_false]
  obtain ⟨s1, s2⟩ := outputSums_spec hv hu
  obtain ⟨b, hb2, hb'⟩ := subtractTerm_spec (bias := c.bias)
    (term := ((outputSums c).1, fun o => d * (outputSums c).2 o)) s1
  have hc : x.activation c = { c with bias := some b } := by
    rw [hx]
    simp only [activationCorrected, if_pos hk, hb2, Option.map_some, Option.getD_some]
  rw [hc]
  simp only [Conv.out]
  have hw : ∀ i t, ({ c with bias := some b } : Conv K).weight o i t = c.weight o i t := fun i t => rfl
  have : valueOr (some b) 0 o = valueOr c.bias 0 o - d * (outputSums c).2 o := hb' o
  rw [this, s2 o ho]
  simp only [hw]
  simp only [hk.1, hk.2, Nat.mul_one, sum_range_one]
  ring

end Layer

/-! ### The hypotheses are met -/

def hEx : Heap String := ⟨1, fun _ => "float"⟩
def xEx : Fix String := ⟨(· ++ "+second"), (· ++ "+bias"), (· ++ "+activation")⟩

example : networks ⟨false, true, true⟩ xEx hEx 0 = ("float", "float+bias+activation") := by decide +kernel
example : networks ⟨false, false, true⟩ xEx hEx 0 = ("float+activation", "float+activation") := by
  decide +kernel
example : networks ⟨true, true, false⟩ xEx hEx 0 = ("float+second", "float+second+bias") := by
  decide +kernel

end MCT.Reference
