import Verif.Prior.Model

/-!
# Properties of the bounds known about the outputs of layers (C134)
-/

namespace MCT.Prior

open MCT.PriorSpec MCT.Collect Real

variable {ι : Type} [Fintype ι]

/-- What the named activation functions compute. -/
noncomputable def actOut : ActName → (ι → ℝ) → ι → ℝ
  | .softmax, x, i => PriorSpec.softmax x i
  | .sigmoid, x, i => 1 / (1 + exp (-x i))
  | .linear, x, i => x i
  | .identity, x, i => x i
  | .tanh, x, i => Real.tanh (x i)
  | .swish, x, i => PriorSpec.silu (x i)
  | .relu, x, i => PriorSpec.relu (x i)
  | .selu, x, i => PriorSpec.selu (x i)
  | .gelu, x, i => PriorSpec.gelu (x i)

/-- What a Keras layer or a TensorFlow operator computes. -/
noncomputable def kOut : KLayer ι → (ι → ℝ) → ι → ℝ
  | .softmaxLayer, x, i => PriorSpec.softmax x i
  | .eluLayer a, x, i => PriorSpec.elu a (x i)
  | .reluLayer m s t, x, i => kerasRelu m s t (x i)
  | .activation a, x, i => actOut a x i
  | .silu, x, i => PriorSpec.silu (x i)
  | .swish, x, i => PriorSpec.silu (x i)
  | .sigmoid, x, i => 1 / (1 + exp (-x i))
  | .tanh, x, i => Real.tanh (x i)
  | .relu, x, i => PriorSpec.relu (x i)
  | .relu6, x, i => PriorSpec.relu6 (x i)
  | .gelu approx, x, i => if approx then geluTanh (x i) else PriorSpec.gelu (x i)
  | .elu, x, i => PriorSpec.elu 1 (x i)
  | .selu, x, i => PriorSpec.selu (x i)
  | .softplus, x, i => PriorSpec.softplus (x i)
  | .softmax, x, i => PriorSpec.softmax x i
  | .other f, x, i => f x i

/-- What a PyTorch module or function computes. -/
noncomputable def tOut : TLayer ι → (ι → ℝ) → ι → ℝ
  | .softmax, x, i => PriorSpec.softmax x i
  | .sigmoid, x, i => 1 / (1 + exp (-x i))
  | .hardsigmoid, x, i => PriorSpec.hardsigmoid (x i)
  | .relu, x, i => PriorSpec.relu (x i)
  | .relu6, x, i => PriorSpec.relu6 (x i)
  | .gelu approx, x, i => if approx then geluTanh (x i) else PriorSpec.gelu (x i)
  | .selu, x, i => PriorSpec.selu (x i)
  | .silu, x, i => PriorSpec.silu (x i)
  | .other f, x, i => f x i

/-- The bounds hold of every output for every input. -/
def Holds (p : Option ℝ × Option ℝ) (f : (ι → ℝ) → ι → ℝ) : Prop :=
  (∀ m, p.1 = some m → ∀ x i, m ≤ f x i) ∧ (∀ m, p.2 = some m → ∀ x i, f x i ≤ m)

theorem holds_none (f : (ι → ℝ) → ι → ℝ) : Holds (none, none) f := by constructor <;> simp

theorem holds_low {a : ℝ} {f : (ι → ℝ) → ι → ℝ} (h : ∀ x i, a ≤ f x i) : Holds (some a, none) f :=
  ⟨by intro m hm; cases hm; exact h, by simp⟩

theorem holds_both {a b : ℝ} {f : (ι → ℝ) → ι → ℝ} (h : ∀ x i, a ≤ f x i) (h' : ∀ x i, f x i ≤ b) :
    Holds (some a, some b) f :=
  ⟨by intro m hm; cases hm; exact h, by intro m hm; cases hm; exact h'⟩

theorem softmax_nonneg (x : ι → ℝ) (i : ι) : 0 ≤ PriorSpec.softmax x i := by
  unfold PriorSpec.softmax; positivity

theorem softmax_le_one (x : ι → ℝ) (i : ι) : PriorSpec.softmax x i ≤ 1 := by
  unfold PriorSpec.softmax
  have h : exp (x i) ≤ ∑ j, exp (x j) :=
    Finset.single_le_sum (f := fun j => exp (x j)) (fun j _ => (exp_pos _).le) (Finset.mem_univ i)
  exact div_le_one_of_le₀ h ((exp_pos _).le.trans h)

theorem sigm_nonneg (x : ℝ) : 0 ≤ 1 / (1 + exp (-x)) := by positivity

theorem sigm_le_one (x : ℝ) : 1 / (1 + exp (-x)) ≤ 1 := by
  have := exp_pos (-x)
  rw [div_le_one (by positivity)]; linarith

theorem elu_ge {α : ℝ} (hα : α ≤ 1) (x : ℝ) : -1 ≤ PriorSpec.elu α x := by
  unfold PriorSpec.elu
  split
  · linarith
  · rename_i h
    have h1 := exp_pos x
    have h2 : exp x ≤ 1 := exp_le_one_iff.2 (by linarith)
    nlinarith

theorem selu_ge (x : ℝ) : -1.76 ≤ PriorSpec.selu x := by
  unfold PriorSpec.selu PriorSpec.elu
  have hs : seluScale = 1.0507009873554804934193349852946 := rfl
  have ha : seluAlpha = 1.6732632423543772848170429916717 := rfl
  split
  · rename_i h
    have : 0 ≤ seluScale * x := by rw [hs]; positivity
    linarith
  · have h1 := exp_pos x
    have : seluScale * (seluAlpha * (exp x - 1)) = seluScale * seluAlpha * exp x - seluScale * seluAlpha := by ring
    rw [this]
    have h2 : seluScale * seluAlpha ≤ 1.76 := by rw [hs, ha]; norm_num
    have h3 : 0 ≤ seluScale * seluAlpha := by rw [hs, ha]; norm_num
    nlinarith [mul_nonneg h3 h1.le]

theorem silu_bound (x : ℝ) : -0.279 ≤ PriorSpec.silu x := by
  have := silu_ge x
  rwa [Real.sigmoid_def, ← one_div] at this

theorem gelu_bound (x : ℝ) : -0.17 ≤ PriorSpec.gelu x := gelu_ge x

theorem relu_nonneg (x : ℝ) : 0 ≤ PriorSpec.relu x := le_max_right _ _

theorem relu6_nonneg (x : ℝ) : 0 ≤ PriorSpec.relu6 x := le_min (le_max_right _ _) (by norm_num)

theorem softplus_nonneg (x : ℝ) : 0 ≤ PriorSpec.softplus x :=
  Real.log_nonneg (by have := exp_pos x; linarith)

theorem tanh_ge (x : ℝ) : -1 ≤ Real.tanh x := (Real.neg_one_lt_tanh x).le

theorem tanh_le (x : ℝ) : Real.tanh x ≤ 1 := (Real.tanh_lt_one x).le

theorem hardsigmoid_bounds (x : ℝ) : 0 ≤ PriorSpec.hardsigmoid x ∧ PriorSpec.hardsigmoid x ≤ 1 := by
  unfold PriorSpec.hardsigmoid
  split
  · norm_num
  · split
    · norm_num
    · constructor <;> linarith

/-- The layers about which the known bounds are right. -/
def KRegular : KLayer ι → Prop
  | .eluLayer a => a ≤ 1
  | .reluLayer m s t => (∀ v, m = some v → 0 ≤ v) ∧ (s = 0 → t ≤ 0)
  | .gelu approx => approx = false
  | _ => True

def TRegular : TLayer ι → Prop
  | .gelu approx => approx = false
  | _ => True

/-- C134 (partial).  Every output of a Keras layer or TensorFlow operator, for every input, lies within the bounds
the toolkit knows about it — except for ELU with alpha above 1, ReLU with a threshold and the approximation of
GELU, of which the theorems below say that the bounds are wrong. -/
theorem C134_keras_bounds_partial (l : KLayer ι) (hl : KRegular l) : Holds (kMinMax l) (kOut l) := by
  cases l with
  | softmaxLayer => exact holds_both softmax_nonneg softmax_le_one
  | eluLayer a => exact holds_low fun x i => elu_ge hl (x i)
  | reluLayer m s t =>
    obtain ⟨hm, ht⟩ := hl
    simp only [kMinMax]
    split
    · rename_i hs
      apply holds_low
      intro x i
      simp only [kOut, kerasRelu]
      have ht' := ht hs
      cases m with
      | none => simp only; split <;> simp_all
      | some v =>
        have := hm v rfl
        simp only
        split
        · linarith
        · split
          · assumption
          · rw [hs]; linarith
    · exact holds_none _
  | activation a => exact holds_none _
  | silu => exact holds_low fun x i => silu_bound (x i)
  | swish => exact holds_low fun x i => silu_bound (x i)
  | sigmoid => exact holds_both (fun x i => sigm_nonneg (x i)) (fun x i => sigm_le_one (x i))
  | tanh => exact holds_both (fun x i => tanh_ge (x i)) (fun x i => tanh_le (x i))
  | relu => exact holds_low fun x i => relu_nonneg (x i)
  | relu6 => exact holds_low fun x i => relu6_nonneg (x i)
  | gelu approx =>
    have : approx = false := hl
    subst this
    exact holds_low fun x i => gelu_bound (x i)
  | elu => exact holds_low fun x i => elu_ge le_rfl (x i)
  | selu => exact holds_low fun x i => selu_ge (x i)
  | softplus => exact holds_low fun x i => softplus_nonneg (x i)
  | softmax => exact holds_both softmax_nonneg softmax_le_one
  | other f => exact holds_none _

example : KRegular (.gelu false : KLayer (Fin 3)) ∧ kMinMax (.gelu false : KLayer (Fin 3)) = (some (-0.17), none) :=
  ⟨rfl, rfl⟩

/-- C134 (partial).  The same of PyTorch modules and functions. -/
theorem C134_torch_bounds_partial (l : TLayer ι) (hl : TRegular l) : Holds (tMinMax l) (tOut l) := by
  cases l with
  | softmax => exact holds_both softmax_nonneg softmax_le_one
  | sigmoid => exact holds_both (fun x i => sigm_nonneg (x i)) (fun x i => sigm_le_one (x i))
  | hardsigmoid => exact holds_both (fun x i => (hardsigmoid_bounds (x i)).1) (fun x i => (hardsigmoid_bounds (x i)).2)
  | relu => exact holds_low fun x i => relu_nonneg (x i)
  | relu6 => exact holds_low fun x i => relu6_nonneg (x i)
  | gelu approx =>
    have : approx = false := hl
    subst this
    exact holds_low fun x i => gelu_bound (x i)
  | selu => exact holds_low fun x i => selu_ge (x i)
  | silu => exact holds_low fun x i => silu_bound (x i)
  | other f => exact holds_none _

example : TRegular (.silu : TLayer (Fin 2)) ∧ tMinMax (.silu : TLayer (Fin 2)) = (some (-0.279), none) :=
  ⟨trivial, rfl⟩

/-- C134.  Which bounds are known, layer by layer: softmax and sigmoids are known on both sides, so are tanh of
TensorFlow only; the other listed functions from below; nothing of other layers. -/
theorem C134_bounded_layers :
    (∀ l : KLayer ι, isBounded (kMinMax l) = true ↔
      l = .softmaxLayer ∨ l = .softmax ∨ l = .sigmoid ∨ l = .tanh) ∧
    (∀ l : TLayer ι, isBounded (tMinMax l) = true ↔ l = .softmax ∨ l = .sigmoid ∨ l = .hardsigmoid) := by
  constructor
  · intro l
    cases l <;> simp [kMinMax, kTable, isBounded]
  · intro l
    cases l <;> simp [tMinMax, isBounded]

/-- C134 (violated).  The bound of the ELU layer is right exactly when alpha is at most 1. -/
theorem C134_elu_violated [Nonempty ι] (a : ℝ) : Holds (kMinMax (.eluLayer a : KLayer ι)) (kOut (.eluLayer a : KLayer ι)) ↔ a ≤ 1 := by
  constructor
  · intro h
    by_contra ha
    push Not at ha
    obtain ⟨i⟩ := ‹Nonempty ι›
    have h1 := h.1 (-1) rfl (fun _ => Real.log ((a - 1) / (2 * a))) i
    have hpos : 0 < (a - 1) / (2 * a) := div_pos (by linarith) (by linarith)
    have hlt : (a - 1) / (2 * a) < 1 := by rw [div_lt_one (by linarith)]; linarith
    simp only [kOut, PriorSpec.elu, if_neg (not_lt.2 (Real.log_neg hpos hlt).le), Real.exp_log hpos] at h1
    have : a * ((a - 1) / (2 * a) - 1) = -(a + 1) / 2 := by field_simp; ring
    rw [this] at h1
    linarith
  · intro h; exact C134_keras_bounds_partial (.eluLayer a) h

/-- C134 (violated).  The bound of the ReLU layer, for the attributes Keras accepts, is right exactly when the slope
below the threshold is not 0 (then nothing is known) or the threshold is 0: with a positive threshold the layer
returns 0 below it, less than the bound, which is the threshold. -/
theorem C134_relu_violated [Nonempty ι] (m : Option ℝ) (s t : ℝ) (hm : ∀ v, m = some v → 0 ≤ v) (ht : 0 ≤ t) :
    Holds (kMinMax (.reluLayer m s t : KLayer ι)) (kOut (.reluLayer m s t : KLayer ι)) ↔ s ≠ 0 ∨ t = 0 := by
  constructor
  · intro h
    by_contra hc
    push Not at hc
    obtain ⟨hs, ht0⟩ := hc
    obtain ⟨i⟩ := ‹Nonempty ι›
    have htp : 0 < t := lt_of_le_of_ne ht (Ne.symm ht0)
    have h1 := h.1 t (by simp [kMinMax, hs]) (fun _ => 0) i
    simp only [kOut, kerasRelu, hs] at h1
    cases m with
    | none =>
      simp only [if_neg (not_le.2 htp)] at h1
      linarith
    | some v =>
      have hv := hm v rfl
      simp only [if_neg (not_le.2 htp)] at h1
      split at h1 <;> linarith
  · intro h
    apply C134_keras_bounds_partial
    refine ⟨hm, ?_⟩
    intro hs
    rcases h with h | h
    · exact absurd hs h
    · exact h.le

/-- C134 (violated).  The approximation of GELU with tanh falls below the bound -0.17 of GELU, in both frameworks. -/
theorem C134_gelu_tanh_violated [Nonempty ι] :
    ¬Holds (kMinMax (.gelu true : KLayer ι)) (kOut (.gelu true : KLayer ι)) ∧
    ¬Holds (tMinMax (.gelu true : TLayer ι)) (tOut (.gelu true : TLayer ι)) := by
  obtain ⟨i⟩ := ‹Nonempty ι›
  have hw := geluTanh_witness
  constructor
  · intro h
    have h1 := h.1 (-0.17) rfl (fun _ => -0.7524) i
    simp only [kOut, geluTanh, if_true] at h1
    linarith
  · intro h
    have h1 := h.1 (-0.17) rfl (fun _ => -0.7524) i
    simp only [tOut, geluTanh, if_true] at h1
    linarith

/-- C134.  The table of bounds of named activation functions is right, and it is never used: an Activation layer is
looked up by its class, and nothing is known about it. -/
theorem C134_activation_table (a : ActName) :
    Holds (activationTable a) (actOut a : (ι → ℝ) → ι → ℝ) ∧
    kMinMax (.activation a : KLayer ι) = (none, none) := by
  refine ⟨?_, rfl⟩
  cases a with
  | softmax => exact holds_both softmax_nonneg softmax_le_one
  | sigmoid => exact holds_both (fun x i => sigm_nonneg (x i)) (fun x i => sigm_le_one (x i))
  | linear => exact holds_none _
  | identity => exact holds_none _
  | tanh => exact holds_both (fun x i => tanh_ge (x i)) (fun x i => tanh_le (x i))
  | swish => exact holds_low fun x i => silu_bound (x i)
  | relu => exact holds_low fun x i => relu_nonneg (x i)
  | selu => exact holds_low fun x i => selu_ge (x i)
  | gelu => exact holds_low fun x i => gelu_bound (x i)

omit [Fintype ι] in
/-- C134.  The bounds of an output to which a constant is added are those of the sum. -/
theorem C134_shifted (p : Option ℝ × Option ℝ) (f : (ι → ℝ) → ι → ℝ) (s : ℝ) :
    Holds (shifted p s) (fun x i => f x i + s) ↔ Holds p f := by
  obtain ⟨a, b⟩ := p
  cases a <;> cases b <;> simp [Holds, shifted]

omit [Fintype ι] in
/-- C134 (partial).  The range reported for the outputs of a layer of which the bounds are right contains every
value that was collected. -/
theorem C134_reported_range_partial {n : ℕ} (hn : 1 ≤ n) (bs : List (Batch n ℝ)) (hne : bs ≠ [])
    (p : Option ℝ × Option ℝ) (f : (ι → ℝ) → ι → ℝ) (hp : Holds p f)
    (hbs : ∀ v, v ∈ CollectSpec.ObservedAny bs → ∃ x i, v = f x i) :
    ∃ lo hi, (bs.foldl MinMax.update (collectorOf n p)).values = some (lo, hi) ∧
      ∀ v, v ∈ CollectSpec.ObservedAny bs → lo ≤ v ∧ v ≤ hi := by
  obtain ⟨lo, hi, h1, h2, h3⟩ := C14_reported_values hn bs hne p.1 p.2
  refine ⟨_, _, h1, ?_⟩
  intro v hv
  obtain ⟨x, i, rfl⟩ := hbs v hv
  constructor
  · cases hm : p.1 with
    | none => exact h2.2 hv
    | some m => exact hp.1 m hm x i
  · cases hm : p.2 with
    | none => exact h3.2 hv
    | some m => exact hp.2 m hm x i

example : ∃ lo hi, (([fun _ => (2, [0])] : List (Batch 1 ℝ)).foldl MinMax.update
    (collectorOf 1 (tMinMax (.relu : TLayer (Fin 1))))).values = some (lo, hi) ∧
    ∀ v, v ∈ CollectSpec.ObservedAny ([fun _ => (2, [0])] : List (Batch 1 ℝ)) → lo ≤ v ∧ v ≤ hi := by
  apply C134_reported_range_partial le_rfl _ (by simp) _ _ (C134_torch_bounds_partial .relu trivial)
  intro v hv
  refine ⟨fun _ => v, 0, ?_⟩
  obtain ⟨c, b, hb, hv⟩ := hv
  simp only [List.mem_singleton] at hb
  subst hb
  simp at hv
  rcases hv with rfl | rfl <;> simp [tOut, PriorSpec.relu]

/-- C134 (violated).  The range reported for an ELU layer with alpha above 1 starts at -1 although outputs below -1
were collected: everything below is clipped. -/
theorem C134_reported_range_violated (a : ℝ) (ha : 1 < a) :
    ∃ (b : Batch 1 ℝ) (x hi : ℝ), b 0 = (PriorSpec.elu a x, []) ∧
      (([b].foldl MinMax.update (collectorOf 1 (kMinMax (.eluLayer a : KLayer (Fin 1))))).values = some (-1, hi)) ∧
      PriorSpec.elu a x < -1 := by
  have hpos : 0 < (a - 1) / (2 * a) := div_pos (by linarith) (by linarith)
  have hlt : (a - 1) / (2 * a) < 1 := by rw [div_lt_one (by linarith)]; linarith
  refine ⟨fun _ => (PriorSpec.elu a (Real.log ((a - 1) / (2 * a))), []), Real.log ((a - 1) / (2 * a)),
    PriorSpec.elu a (Real.log ((a - 1) / (2 * a))), rfl, ?_, ?_⟩
  · simp [collectorOf, kMinMax, kTable, MinMax.init, MinMax.update, MinMax.values, MinMax.min, MinMax.max,
      Search.npMin, Search.npMax]
  · simp only [PriorSpec.elu, if_neg (not_lt.2 (Real.log_neg hpos hlt).le), Real.exp_log hpos]
    have : a * ((a - 1) / (2 * a) - 1) = -(a + 1) / 2 := by field_simp; ring
    rw [this]; linarith

end MCT.Prior
