/- Soft rounding: where GPTQ starts from, how far it may go and what it can reach. -/
import Verif.Train.Lemmas

namespace MCT.Train
open MCT.Quant MCT.QuantSpec

set_option linter.unusedSectionVars false
set_option linter.unusedVariables false

/-! ### The trained variable -/

theorem zeta_sub_gamma : zeta - gamma = 6 / 5 := by unfold zeta gamma; norm_num

theorem sigmoid_neg_log {y : ℝ} (hy : 0 < y) : sigmoid (-Real.log y) = 1 / (1 + y) := by
  unfold sigmoid; rw [neg_neg, Real.exp_log hy]

/-- The initial variable makes the soft target equal to the fractional part. -/
theorem softTarget_initTorch {r : ℝ} (h0 : 0 ≤ r) (h1 : r ≤ 1) : softTarget (initTorch r) = r := by
  unfold softTarget initTorch
  have hg : 0 < r - gamma := by unfold gamma; linarith
  have hy : 0 < (zeta - gamma) / (r - gamma) - 1 := by
    rw [sub_pos, lt_div_iff₀ hg]; unfold zeta gamma; linarith
  rw [sigmoid_neg_log hy]
  have e : 1 / (1 + ((zeta - gamma) / (r - gamma) - 1)) * (zeta - gamma) + gamma = r := by
    have hz : zeta - gamma ≠ 0 := by rw [zeta_sub_gamma]; norm_num
    have h2 : 1 + ((zeta - gamma) / (r - gamma) - 1) = (zeta - gamma) / (r - gamma) := by ring
    rw [h2, one_div_div, div_mul_cancel₀ _ hz]; ring
  rw [e]
  exact npClip_of_mem h0 h1

theorem initKeras_eq {r : ℝ} (h0 : 0 ≤ r) (h1 : r ≤ 1) : initKeras r = initTorch r := by
  unfold initKeras initTorch
  have hg : 0 < r - gamma := by unfold gamma; linarith
  rw [max_eq_left]
  have : (1 / 10 ^ 16 : ℝ) + 1 ≤ (zeta - gamma) / (r - gamma) := by
    rw [le_div_iff₀ hg, zeta_sub_gamma]
    unfold gamma
    have : r - -(1 / 10) ≤ 11 / 10 := by linarith
    nlinarith
  linarith

theorem softTarget_initKeras {r : ℝ} (h0 : 0 ≤ r) (h1 : r ≤ 1) : softTarget (initKeras r) = r := by
  rw [initKeras_eq h0 h1, softTarget_initTorch h0 h1]

theorem softTarget_mem (α : ℝ) : 0 ≤ softTarget α ∧ softTarget α ≤ 1 :=
  npClip_mem (by norm_num)

theorem fract_bounds (x : ℝ) : 0 ≤ x - ⌊x⌋ ∧ x - ⌊x⌋ ≤ 1 := by
  have h1 := Int.floor_le x
  have h2 := Int.lt_floor_add_one x
  constructor <;> linarith

theorem hardTarget_mem {K : Type} [Field K] [LinearOrder K] [IsStrictOrderedRing K] (st : K) :
    0 ≤ hardTarget st ∧ hardTarget st ≤ 1 := by
  unfold hardTarget; split_ifs <;> simp

/-! ### Clipping -/

variable {K : Type} [Field K] [LinearOrder K] [IsStrictOrderedRing K] [FloorRing K]

theorem clip_lipschitz (x y a b : K) : |npClip x a b - npClip y a b| ≤ |x - y| := by
  unfold npClip
  refine (abs_min_sub_min_le_max _ _ _ _).trans ?_
  rw [sub_self, abs_zero, max_eq_left (abs_nonneg _)]
  refine (abs_max_sub_max_le_max _ _ _ _).trans ?_
  rw [sub_self, abs_zero, max_eq_left (abs_nonneg _)]

theorem mul_clip {d : K} (hd : 0 < d) (x a b : K) : d * npClip x a b = npClip (d * x) (d * a) (d * b) := by
  unfold npClip
  rw [mul_min_of_nonneg _ _ hd.le, mul_max_of_nonneg _ _ hd.le]

/-- Scaling the code range gives the range of the signed grid. -/
theorem signed_clip {t : K} (ht : 0 < t) (n : ℕ) (w : K) :
    (t / 2 ^ (n - 1)) * npClip (w / (t / 2 ^ (n - 1))) (minInt n true) (maxInt n true) =
      npClip w (-t) (t - t / 2 ^ (n - 1)) := by
  have hd : 0 < t / 2 ^ (n - 1) := by positivity
  rw [mul_clip hd]
  have h2 : (2 : K) ^ (n - 1) ≠ 0 := by positivity
  congr 1
  · field_simp
  · simp only [minInt, Bool.toNat_true, Nat.cast_one, one_mul]; field_simp
  · simp only [maxInt, Bool.toNat_true]; field_simp

/-- The frac of a clipped value restores the clipped value. -/
theorem floor_add_rest {v : K} {m M : ℤ} (hmM : m ≤ M) :
    npClip ((⌊v⌋ : K) + (npClip v m M - ⌊npClip v (m : K) M⌋)) m M = npClip v m M := by
  have hc : (m : K) ≤ M := by exact_mod_cast hmM
  rcases lt_or_ge v m with h | h
  · have e : npClip v (m : K) M = m := by
      unfold npClip; rw [max_eq_right h.le, min_eq_left hc]
    rw [e, Int.floor_intCast, sub_self, add_zero]
    have : (⌊v⌋ : K) ≤ m := (Int.floor_le v).trans h.le
    unfold npClip; rw [max_eq_right this, min_eq_left hc]
  rcases le_or_gt v M with h' | h'
  · rw [npClip_of_mem h h']
    have : (⌊v⌋ : K) + (v - ⌊v⌋) = v := by ring
    rw [this, npClip_of_mem h h']
  · have e : npClip v (m : K) M = M := by
      unfold npClip; rw [max_eq_left h, min_eq_right h'.le]
    rw [e, Int.floor_intCast, sub_self, add_zero]
    have : (M : K) ≤ ⌊v⌋ := by exact_mod_cast Int.le_floor.mpr h'.le
    unfold npClip; rw [max_eq_left (hc.trans this), min_eq_right this]

/-- The hard version: a nearest integer of the range. -/
theorem clip_hard_rest {v : K} {m M : ℤ} (hmM : m ≤ M) {j : ℤ} (hj1 : m ≤ j) (hj2 : j ≤ M) :
    |npClip ((⌊v⌋ : K) + hardTarget (npClip v m M - ⌊npClip v (m : K) M⌋)) m M - v| ≤ |(j : K) - v| := by
  have hc : (m : K) ≤ M := by exact_mod_cast hmM
  have hj1' : (m : K) ≤ j := by exact_mod_cast hj1
  have hj2' : (j : K) ≤ M := by exact_mod_cast hj2
  have hz : hardTarget (0 : K) = 0 := by
    unfold hardTarget
    rw [if_neg]; norm_num
  rcases lt_or_ge v m with h | h
  · have e : npClip v (m : K) M = m := by
      unfold npClip; rw [max_eq_right h.le, min_eq_left hc]
    rw [e, Int.floor_intCast, sub_self, hz, add_zero]
    have : (⌊v⌋ : K) ≤ m := (Int.floor_le v).trans h.le
    have e2 : npClip (⌊v⌋ : K) m M = m := by unfold npClip; rw [max_eq_right this, min_eq_left hc]
    rw [e2, abs_of_pos (by linarith), abs_of_pos (by linarith)]; linarith
  rcases le_or_gt v M with h' | h'
  · rw [npClip_of_mem h h']
    have e : (⌊v⌋ : K) + hardTarget (v - ⌊v⌋) =
        ((⌊v⌋ + (if (1 : K) / 2 ≤ v - ⌊v⌋ then 1 else 0) : ℤ) : K) := by
      unfold hardTarget; split_ifs <;> simp
    rw [e, npClip_cast]
    exact clip_nearest (floor_hard_sub_le v) hmM hj1 hj2
  · have e : npClip v (m : K) M = M := by
      unfold npClip; rw [max_eq_left h, min_eq_right h'.le]
    rw [e, Int.floor_intCast, sub_self, hz, add_zero]
    have : (M : K) ≤ ⌊v⌋ := by exact_mod_cast Int.le_floor.mpr h'.le
    have e2 : npClip (⌊v⌋ : K) m M = M := by
      unfold npClip; rw [max_eq_left (hc.trans this), min_eq_right this]
    rw [e2, abs_of_neg (by linarith), abs_of_neg (by linarith)]; linarith

theorem symCall_one (c : SymCfg K) (tr : Bool) (w st t : K) (hp : c.pot = true → IsPow2 t ∧ c.minT ≤ t) :
    symCall c tr w st t 1 =
      (t / 2 ^ (c.n - 1)) * npClip ((⌊w / (t / 2 ^ (c.n - 1))⌋ : K) + (if tr then st else hardTarget st))
        (minInt c.n true) (maxInt c.n true) := by
  have h1 : posScale (1 : K) c.minT = 1 := by
    unfold posScale; rw [if_neg]; norm_num
  unfold symCall softSym
  simp only [effThreshold_of_pow2 hp, h1, mul_one, ite_self]
  rfl

/-! ### C86: training starts from the float weights -/

/-- **C86** (symmetric, PyTorch): before the first step the quantizer returns, in training mode, the float
weight clipped to the range of the signed grid, and in evaluation mode a nearest point of that grid. -/
theorem C86_symmetric_torch (c : SymCfg ℝ) (w t : ℝ) (ht : 0 < t)
    (hp : c.pot = true → IsPow2 t ∧ c.minT ≤ t) :
    symCall c true w (softTarget (initTorch (restSymTorch w t c.n))) t 1 =
        min (max w (-t)) (t - t / 2 ^ (c.n - 1)) ∧
      Nearest (SignedGrid t c.n) w
        (symCall c false w (softTarget (initTorch (restSymTorch w t c.n))) t 1) := by
  have hm : (1 : ℤ) ≤ 2 ^ (c.n - 1) := one_le_pow₀ (by norm_num)
  have hr : restSymTorch w t c.n =
      npClip (w / (t / 2 ^ (c.n - 1))) ((-(2 ^ (c.n - 1)) : ℤ) : ℝ) ((2 ^ (c.n - 1) - 1 : ℤ) : ℝ) -
        ⌊npClip (w / (t / 2 ^ (c.n - 1))) ((-(2 ^ (c.n - 1)) : ℤ) : ℝ) ((2 ^ (c.n - 1) - 1 : ℤ) : ℝ)⌋ := by
    unfold restSymTorch calculateDelta
    push_cast; rfl
  have hb : 0 ≤ restSymTorch w t c.n ∧ restSymTorch w t c.n ≤ 1 := fract_bounds _
  rw [softTarget_initTorch hb.1 hb.2, symCall_one c true w _ t hp, symCall_one c false w _ t hp]
  simp only [if_true, Bool.false_eq_true, if_false]
  have hd : 0 < t / 2 ^ (c.n - 1) := by positivity
  constructor
  · have := signed_clip ht c.n w
    rw [minInt_true, maxInt_true] at this ⊢
    rw [hr, floor_add_rest (by omega), this]; rfl
  · rw [hr, minInt_true, maxInt_true]
    have e : (⌊w / (t / 2 ^ (c.n - 1))⌋ : ℝ) + hardTarget
        (npClip (w / (t / 2 ^ (c.n - 1))) ((-(2 ^ (c.n - 1)) : ℤ) : ℝ) ((2 ^ (c.n - 1) - 1 : ℤ) : ℝ) -
        ⌊npClip (w / (t / 2 ^ (c.n - 1))) ((-(2 ^ (c.n - 1)) : ℤ) : ℝ) ((2 ^ (c.n - 1) - 1 : ℤ) : ℝ)⌋) =
        ((⌊w / (t / 2 ^ (c.n - 1))⌋ + (if (1 : ℝ) / 2 ≤
          (npClip (w / (t / 2 ^ (c.n - 1))) ((-(2 ^ (c.n - 1)) : ℤ) : ℝ) ((2 ^ (c.n - 1) - 1 : ℤ) : ℝ) -
        ⌊npClip (w / (t / 2 ^ (c.n - 1))) ((-(2 ^ (c.n - 1)) : ℤ) : ℝ) ((2 ^ (c.n - 1) - 1 : ℤ) : ℝ)⌋)
          then 1 else 0) : ℤ) : ℝ) := by
      unfold hardTarget; split_ifs <;> simp
    refine ⟨?_, ?_⟩
    · rw [e]
      have := signed_code_mem (t := t) (n := c.n)
        (⌊w / (t / 2 ^ (c.n - 1))⌋ + (if (1 : ℝ) / 2 ≤
          (npClip (w / (t / 2 ^ (c.n - 1))) ((-(2 ^ (c.n - 1)) : ℤ) : ℝ) ((2 ^ (c.n - 1) - 1 : ℤ) : ℝ) -
        ⌊npClip (w / (t / 2 ^ (c.n - 1))) ((-(2 ^ (c.n - 1)) : ℤ) : ℝ) ((2 ^ (c.n - 1) - 1 : ℤ) : ℝ)⌋)
          then 1 else 0))
      rwa [minInt_true, maxInt_true] at this
    · rintro z ⟨j, hj1, hj2, rfl⟩
      have hn := clip_hard_rest (v := w / (t / 2 ^ (c.n - 1))) (m := -(2 ^ (c.n - 1)))
        (M := 2 ^ (c.n - 1) - 1) (by omega) hj1 hj2
      have es : ∀ q : ℝ, |(t / 2 ^ (c.n - 1)) * q - w| =
          (t / 2 ^ (c.n - 1)) * |q - w / (t / 2 ^ (c.n - 1))| := by
        intro q
        rw [← abs_of_pos hd, ← abs_mul, abs_of_pos hd]; congr 1; field_simp
      rw [mul_comm (j : ℝ), es, es]
      exact mul_le_mul_of_nonneg_left hn hd.le

/-- **C86** (symmetric, Keras): the same. -/
theorem C86_symmetric_keras (c : SymCfg ℝ) (w t : ℝ) (ht : 0 < t)
    (hp : c.pot = true → IsPow2 t ∧ c.minT ≤ t) :
    symCall c true w (softTarget (initKeras (restSymKeras w t c.n))) t 1 =
        min (max w (-t)) (t - t / 2 ^ (c.n - 1)) ∧
      Nearest (SignedGrid t c.n) w
        (symCall c false w (softTarget (initKeras (restSymKeras w t c.n))) t 1) := by
  have hb : 0 ≤ restSymKeras w t c.n ∧ restSymKeras w t c.n ≤ 1 := fract_bounds _
  rw [softTarget_initKeras hb.1 hb.2, symCall_one c true w _ t hp, symCall_one c false w _ t hp]
  simp only [if_true, Bool.false_eq_true, if_false]
  have hr : restSymKeras w t c.n = w / (t / 2 ^ (c.n - 1)) - ⌊w / (t / 2 ^ (c.n - 1))⌋ := rfl
  rw [hr]
  constructor
  · have : (⌊w / (t / 2 ^ (c.n - 1))⌋ : ℝ) + (w / (t / 2 ^ (c.n - 1)) - ⌊w / (t / 2 ^ (c.n - 1))⌋) =
        w / (t / 2 ^ (c.n - 1)) := by ring
    rw [this, signed_clip ht]; rfl
  · have e : (⌊w / (t / 2 ^ (c.n - 1))⌋ : ℝ) +
        hardTarget (w / (t / 2 ^ (c.n - 1)) - ⌊w / (t / 2 ^ (c.n - 1))⌋) =
        ((⌊w / (t / 2 ^ (c.n - 1))⌋ + (if (1 : ℝ) / 2 ≤ w / (t / 2 ^ (c.n - 1)) - ⌊w / (t / 2 ^ (c.n - 1))⌋
          then 1 else 0) : ℤ) : ℝ) := by
      unfold hardTarget; split_ifs <;> simp
    rw [e]
    exact signed_code_nearest ht (floor_hard_sub_le _)

/-- Both hypotheses are met by a power-of-two quantizer with threshold 2. -/
example : symCall ⟨8, true, false, 1 / 65536⟩ true (0.3 : ℝ)
    (softTarget (initTorch (restSymTorch 0.3 2 8))) 2 1 = 0.3 := by
  have h := (C86_symmetric_torch ⟨8, true, false, 1 / 65536⟩ 0.3 2 (by norm_num)
    (fun _ => ⟨⟨1, by norm_num⟩, by norm_num⟩)).1
  rw [h]; norm_num

theorem uniform_clip {a b : K} (h : a < b) {n : ℕ} (hn : 1 ≤ n) (w : K) :
    ((b - a) / (2 ^ n - 1)) * npClip ((w - a) / ((b - a) / (2 ^ n - 1))) 0 (2 ^ n - 1) + a =
      npClip w a b := by
  have hd := delta_pos h hn
  have hp : (0 : K) < 2 ^ n - 1 := two_pow_sub_one_pos hn
  rw [mul_clip hd, mul_div_cancel₀ _ hd.ne', mul_zero, div_mul_cancel₀ _ hp.ne']
  unfold npClip
  rw [← min_add_add_right, ← max_add_add_right]; simp

/-- The code range of the uniform grid as integers. -/
theorem uniMax_cast (n : ℕ) : (2 ^ n - 1 : K) = ((2 ^ n - 1 : ℤ) : K) := by push_cast; rfl

/-- **C86** (uniform, PyTorch), for a range that already contains a representable zero (a range that the
adjustment leaves as it is): as in the symmetric case. For the other ranges see
`C86_uniform_torch_violated`. -/
theorem C86_uniform_torch_partial (w a b : ℝ) (n : ℕ) (h : a < b) (hn : 1 ≤ n)
    (hz : fixRange a b n = (a, b)) :
    uniCall n true w (softTarget (initTorch (restUniTorch w a b n))) a b = min (max w a) b ∧
      Nearest (UniformGrid a b n) w
        (uniCall n false w (softTarget (initTorch (restUniTorch w a b n))) a b) := by
  have hd := delta_pos h hn
  have hm : (1 : ℤ) ≤ 2 ^ n := one_le_pow₀ (by norm_num)
  set v := (w - a) / ((b - a) / (2 ^ n - 1)) with hv
  have hr : restUniTorch w a b n =
      npClip v ((0 : ℤ) : ℝ) ((2 ^ n - 1 : ℤ) : ℝ) - ⌊npClip v ((0 : ℤ) : ℝ) ((2 ^ n - 1 : ℤ) : ℝ)⌋ := by
    unfold restUniTorch; push_cast; rfl
  have hb : 0 ≤ restUniTorch w a b n ∧ restUniTorch w a b n ≤ 1 := fract_bounds _
  rw [softTarget_initTorch hb.1 hb.2]
  unfold uniCall softUni
  rw [hz]
  simp only [if_true, Bool.false_eq_true, if_false]
  rw [← hv]
  have e0 : ∀ q : ℝ, npClip q 0 (2 ^ n - 1) = npClip q ((0 : ℤ) : ℝ) ((2 ^ n - 1 : ℤ) : ℝ) := by
    intro q; push_cast; rfl
  constructor
  · have := uniform_clip h hn w
    rw [← hv] at this
    rw [hr, e0, floor_add_rest (by omega), ← e0, this]; rfl
  · have hmem : ∀ q : ℝ, hardTarget q = (((if (1 : ℝ) / 2 ≤ q then 1 else 0) : ℤ) : ℝ) := by
      intro q; unfold hardTarget; split_ifs <;> simp
    refine ⟨?_, ?_⟩
    · rw [hmem, ← Int.cast_add, e0, npClip_cast]
      have hmm := npClipZ_mem (k := ⌊v⌋ + (if (1 : ℝ) / 2 ≤ restUniTorch w a b n then 1 else 0))
        (m := 0) (M := 2 ^ n - 1) (by omega)
      set k := npClip (⌊v⌋ + (if (1 : ℝ) / 2 ≤ restUniTorch w a b n then 1 else 0)) 0 (2 ^ n - 1 : ℤ)
      refine ⟨k.toNat, ?_, ?_⟩
      · have : ((2 : ℤ) ^ n - 1) = ((2 ^ n - 1 : ℕ) : ℤ) := by
          rw [Nat.cast_sub Nat.one_le_two_pow]; push_cast; rfl
        omega
      · have : ((k.toNat : ℕ) : ℝ) = ((k : ℤ) : ℝ) := by
          have := Int.toNat_of_nonneg hmm.1
          exact_mod_cast congrArg (fun z : ℤ => (z : ℝ)) this
        rw [this]; ring
    · rintro z ⟨j, hj, rfl⟩
      have hj' : (j : ℤ) ≤ 2 ^ n - 1 := by
        have : ((2 : ℤ) ^ n - 1) = ((2 ^ n - 1 : ℕ) : ℤ) := by
          rw [Nat.cast_sub Nat.one_le_two_pow]; push_cast; rfl
        omega
      have hnr := clip_hard_rest (v := v) (m := 0) (M := 2 ^ n - 1) (by omega) (j := (j : ℤ)) (by omega) hj'
      have es : ∀ q : ℝ, |((b - a) / (2 ^ n - 1)) * q + a - w| = ((b - a) / (2 ^ n - 1)) * |q - v| := by
        intro q
        rw [← abs_of_pos hd, ← abs_mul, abs_of_pos hd]; congr 1
        rw [hv, mul_sub, mul_div_cancel₀ _ hd.ne']; ring
      have e2 : a + (j : ℝ) * ((b - a) / (2 ^ n - 1)) = ((b - a) / (2 ^ n - 1)) * ((j : ℤ) : ℝ) + a := by
        push_cast; ring
      rw [e2, es, es, e0, hr]
      exact mul_le_mul_of_nonneg_left hnr hd.le

/-- **C86** (uniform, Keras) is false: the arguments of the clipping are swapped, and every weight starts
rounded down: the first value is the highest grid point not above the clipped weight. -/
theorem C86_uniform_keras_rounds_down (w a b : ℝ) (n : ℕ) (tr : Bool) (h : a < b) (hn : 1 ≤ n) :
    ∃ y, uniCall n tr w (softTarget (initKeras (restUniKeras w a b n))) a b = y ∧
      y ∈ UniformGrid (fixRange a b n).1 (fixRange a b n).2 n ∧
      y ≤ min (max w (fixRange a b n).1) (fixRange a b n).2 ∧
      min (max w (fixRange a b n).1) (fixRange a b n).2 - y <
        ((fixRange a b n).2 - (fixRange a b n).1) / (2 ^ n - 1) := by
  obtain ⟨_, _, _, hlt, _, _, _⟩ := fixRange_spec a b n h hn
  set A := (fixRange a b n).1 with hA
  set B := (fixRange a b n).2 with hB
  have hd := delta_pos hlt hn
  have hp : (0 : ℝ) < 2 ^ n - 1 := two_pow_sub_one_pos hn
  have hm : (1 : ℤ) ≤ 2 ^ n := one_le_pow₀ (by norm_num)
  have hr : restUniKeras w a b n = 0 := by
    have : clipKeras ((w - a) / ((b - a) / (2 ^ n - 1))) 0 (2 ^ n - 1) = 0 := by
      unfold clipKeras
      exact min_eq_right (le_max_of_le_right hp.le)
    unfold restUniKeras; simp only [this]; simp
  have hst : softTarget (initKeras (restUniKeras w a b n)) = 0 := by
    rw [hr]; exact softTarget_initKeras le_rfl (by norm_num)
  have hz : hardTarget (0 : ℝ) = 0 := by unfold hardTarget; rw [if_neg]; norm_num
  refine ⟨_, rfl, ?_⟩
  rw [hst]
  have e : uniCall n tr w 0 a b =
      ((B - A) / (2 ^ n - 1)) * npClip (⌊(w - A) / ((B - A) / (2 ^ n - 1))⌋ : ℝ) 0 (2 ^ n - 1) + A := by
    unfold uniCall softUni; cases tr <;> simp [hz, ← hA, ← hB]
  rw [e]
  set d := (B - A) / (2 ^ n - 1) with hdd
  set v := (w - A) / d with hv
  have hcl := uniform_clip hlt hn w
  rw [← hdd, ← hv] at hcl
  have e0 : npClip (⌊v⌋ : ℝ) 0 (2 ^ n - 1) = ((npClip ⌊v⌋ 0 (2 ^ n - 1) : ℤ) : ℝ) := by
    have := npClip_cast (K := ℝ) ⌊v⌋ 0 (2 ^ n - 1); push_cast at this; exact this
  have hmm := npClipZ_mem (k := ⌊v⌋) (m := 0) (M := 2 ^ n - 1) (by omega)
  refine ⟨?_, ?_, ?_⟩
  · rw [e0]
    set k := npClip ⌊v⌋ 0 (2 ^ n - 1 : ℤ)
    refine ⟨k.toNat, ?_, ?_⟩
    · have : ((2 : ℤ) ^ n - 1) = ((2 ^ n - 1 : ℕ) : ℤ) := by
        rw [Nat.cast_sub Nat.one_le_two_pow]; push_cast; rfl
      omega
    · have : ((k.toNat : ℕ) : ℝ) = ((k : ℤ) : ℝ) := by
        have := Int.toNat_of_nonneg hmm.1
        exact_mod_cast congrArg (fun z : ℤ => (z : ℝ)) this
      rw [this]; ring
  · have : min (max w A) B = d * npClip v 0 (2 ^ n - 1) + A := hcl.symm
    rw [this]
    have := npClip_mono (a := (0 : ℝ)) (b := 2 ^ n - 1) (Int.floor_le v)
    have := mul_le_mul_of_nonneg_left this hd.le
    linarith
  · have : min (max w A) B = d * npClip v 0 (2 ^ n - 1) + A := hcl.symm
    rw [this]
    have hlt2 : npClip v 0 (2 ^ n - 1) - npClip (⌊v⌋ : ℝ) 0 (2 ^ n - 1) < 1 := by
      have h1 := clip_lipschitz v (⌊v⌋ : ℝ) 0 (2 ^ n - 1)
      have h2 := Int.lt_floor_add_one v
      have h3 := Int.floor_le v
      have h4 : |v - (⌊v⌋ : ℝ)| < 1 := by rw [abs_of_nonneg (by linarith)]; linarith
      exact (le_abs_self _).trans_lt (h1.trans_lt h4)
    have := mul_lt_mul_of_pos_left hlt2 hd
    linarith

theorem fixRange_pm1_two : fixRange (-1 : ℝ) 1 2 = (-(4 / 3), 2 / 3) := by
  rw [fixRange_eq _ _ _ (by norm_num)]
  have hr : npRound ((-1 : ℝ) / ((1 - -1) / (2 ^ 2 - 1))) = -2 := by
    have e : ((-1 : ℝ) / ((1 - -1) / (2 ^ 2 - 1))) = -(3 / 2) := by norm_num
    have hf : ⌊(-(3 / 2) : ℝ)⌋ = -2 := by rw [Int.floor_eq_iff]; norm_num
    rw [e]; unfold npRound; simp only [hf]; norm_num
  simp only [hr]; norm_num

/-- **C86** (uniform, PyTorch) is false for a range that has to be adjusted: with two bits on `[-1, 1]` the
weight 0, which is a point of the grid, starts as 1/3 in training and as 2/3 in evaluation. -/
theorem C86_uniform_torch_violated :
    (0 : ℝ) ∈ UniformGrid (fixRange (-1 : ℝ) 1 2).1 (fixRange (-1 : ℝ) 1 2).2 2 ∧
      uniCall 2 true (0 : ℝ) (softTarget (initTorch (restUniTorch 0 (-1) 1 2))) (-1) 1 = 1 / 3 ∧
      uniCall 2 false (0 : ℝ) (softTarget (initTorch (restUniTorch 0 (-1) 1 2))) (-1) 1 = 2 / 3 := by
  have hr : restUniTorch (0 : ℝ) (-1) 1 2 = 1 / 2 := by
    have e : npClip ((0 - (-1 : ℝ)) / ((1 - -1) / (2 ^ 2 - 1))) 0 (2 ^ 2 - 1) = 3 / 2 := by
      unfold npClip; norm_num
    have hf : ⌊(3 / 2 : ℝ)⌋ = 1 := by rw [Int.floor_eq_iff]; norm_num
    unfold restUniTorch; simp only [e, hf]; norm_num
  rw [hr, softTarget_initTorch (by norm_num) (by norm_num)]
  have hf : ⌊(0 - -(4 / 3) : ℝ) / ((2 / 3 - -(4 / 3)) / (2 ^ 2 - 1))⌋ = 2 := by
    rw [Int.floor_eq_iff]; norm_num
  refine ⟨?_, ?_, ?_⟩
  · rw [fixRange_pm1_two]
    exact ⟨2, by norm_num, by norm_num⟩
  · unfold uniCall softUni
    simp only [fixRange_pm1_two, hf]
    unfold npClip; norm_num
  · unfold uniCall softUni hardTarget
    simp only [fixRange_pm1_two, hf]
    unfold npClip; norm_num

/-- **C86** (uniform, Keras) is false on an aligned range: with one bit on `[0, 1]` the weight 9/10 starts as
0, although 1 is nearer. -/
theorem C86_uniform_keras_violated :
    uniCall 1 false (9 / 10 : ℝ) (softTarget (initKeras (restUniKeras (9 / 10) 0 1 1))) 0 1 = 0 ∧
      ¬ Nearest (UniformGrid (0 : ℝ) 1 1) (9 / 10) 0 ∧ fixRange (0 : ℝ) 1 1 = (0, 1) := by
  have hz : fixRange (0 : ℝ) 1 1 = (0, 1) := by
    rw [fixRange_eq _ _ _ (by norm_num)]
    have : npRound (0 : ℝ) = 0 := by simpa using npRound_intCast (K := ℝ) 0
    norm_num [this]
  have hr : restUniKeras (9 / 10 : ℝ) 0 1 1 = 0 := by
    have : clipKeras ((9 / 10 - (0 : ℝ)) / ((1 - 0) / (2 ^ 1 - 1))) 0 (2 ^ 1 - 1) = 0 := by
      unfold clipKeras; norm_num
    unfold restUniKeras; simp only [this]; simp
  refine ⟨?_, ?_, hz⟩
  · rw [hr, softTarget_initKeras le_rfl (by norm_num)]
    have hf : ⌊(9 / 10 - 0 : ℝ) / ((1 - 0) / (2 ^ 1 - 1))⌋ = 0 := by rw [Int.floor_eq_iff]; norm_num
    unfold uniCall softUni hardTarget
    simp only [hz, hf]
    unfold npClip; norm_num
  · rintro ⟨_, h⟩
    have := h 1 ⟨1, by norm_num, by norm_num⟩
    rw [abs_of_neg (by norm_num), abs_of_pos (by norm_num)] at this
    norm_num at this

/-! ### C87: how far a weight may go -/

theorem clip_floor_add (v aux m M : K) (h0 : 0 ≤ aux) (h1 : aux ≤ 1) :
    |npClip ((⌊v⌋ : K) + aux) m M - npClip v m M| ≤ 1 := by
  refine (clip_lipschitz _ _ _ _).trans ?_
  have := Int.floor_le v
  have := Int.lt_floor_add_one v
  rw [abs_le]; constructor <;> linarith

/-- **C87** (soft rounding, symmetric): whatever the trained variable became, the weight is within one step
of the clipped float weight, up to the learned scale, in training and in evaluation, and in evaluation it is a
point of the signed grid of the scaled threshold. -/
theorem C87_soft_symmetric (c : SymCfg ℝ) (w t s α : ℝ) (tr : Bool) (ht : 0 < t) (hmin : 0 < c.minT) :
    ∃ g T, 0 < g ∧ (c.learning = false ∨ c.pot = true → g = 1) ∧
      (c.learning = true → c.pot = false → g = if s ≤ 0 then c.minT else s) ∧
      (c.pot = false → T = t) ∧ (c.pot = true → IsPow2 T ∧ t ≤ T ∧ c.minT ≤ T) ∧
      |symCall c tr w (softTarget α) t s - g * min (max w (-T)) (T - T / 2 ^ (c.n - 1))| ≤
        g * (T / 2 ^ (c.n - 1)) ∧
      symCall c false w (softTarget α) t s ∈ SignedGrid (T * g) c.n := by
  set T := effThreshold t c.pot c.minT with hT
  have hTp : 0 < T := effThreshold_pos ht _ _
  set g := if c.learning && !c.pot then posScale s c.minT else 1 with hg
  have hgp : 0 < g := by
    rw [hg]; unfold posScale; split_ifs <;> first | assumption | (push Not at *; assumption) | norm_num
  have hcall : ∀ tr, symCall c tr w (softTarget α) t s = g * ((T / 2 ^ (c.n - 1)) *
      npClip ((⌊w / (T / 2 ^ (c.n - 1))⌋ : ℝ) + (if tr then softTarget α else hardTarget (softTarget α)))
        (minInt c.n true) (maxInt c.n true)) := by
    intro tr
    unfold symCall softSym calculateDelta
    simp only [← hT, Bool.toNat_true]
    rw [hg]; split_ifs <;> ring
  refine ⟨g, T, hgp, ?_, ?_, ?_, ?_, ?_, ?_⟩
  · intro h; rw [hg, if_neg]
    rcases h with h | h <;> simp [h]
  · intro h1 h2; rw [hg, h1, h2]; rfl
  · intro h; rw [hT]; unfold effThreshold; rw [h]; rfl
  · intro h
    have e : T = maxPowerOfTwo t c.minT := by rw [hT]; unfold effThreshold; rw [h]; rfl
    rw [e]; unfold maxPowerOfTwo
    have hle : max t c.minT ≤ (2 : ℝ) ^ Int.clog 2 (max t c.minT) := by
      have := Int.self_le_zpow_clog (R := ℝ) (b := 2) (by norm_num) (max t c.minT)
      simpa using this
    exact ⟨⟨_, rfl⟩, (le_max_left _ _).trans hle, (le_max_right _ _).trans hle⟩
  · rw [hcall tr]
    have hd : 0 < T / 2 ^ (c.n - 1) := by positivity
    have := signed_clip hTp c.n w
    have e : min (max w (-T)) (T - T / 2 ^ (c.n - 1)) =
      (T / 2 ^ (c.n - 1)) * npClip (w / (T / 2 ^ (c.n - 1))) (minInt c.n true) (maxInt c.n true) := this.symm
    rw [e, ← mul_sub, ← mul_sub, abs_mul, abs_mul, abs_of_pos hgp, abs_of_pos hd]
    refine mul_le_mul_of_nonneg_left ?_ hgp.le
    have h01 : 0 ≤ (if tr then softTarget α else hardTarget (softTarget α)) ∧
        (if tr then softTarget α else hardTarget (softTarget α)) ≤ 1 := by
      split_ifs
      · exact softTarget_mem α
      · exact hardTarget_mem _
    have := clip_floor_add (w / (T / 2 ^ (c.n - 1))) _ (minInt c.n true) (maxInt c.n true) h01.1 h01.2
    calc (T / 2 ^ (c.n - 1)) * _ ≤ (T / 2 ^ (c.n - 1)) * 1 := mul_le_mul_of_nonneg_left this hd.le
      _ = _ := mul_one _
  · rw [hcall false]
    simp only [Bool.false_eq_true, if_false]
    have e : (⌊w / (T / 2 ^ (c.n - 1))⌋ : ℝ) + hardTarget (softTarget α) =
        ((⌊w / (T / 2 ^ (c.n - 1))⌋ + (if (1 : ℝ) / 2 ≤ softTarget α then 1 else 0) : ℤ) : ℝ) := by
      unfold hardTarget; split_ifs <;> simp
    rw [e]
    have := signed_code_mem (t := T * g) (n := c.n)
      (⌊w / (T / 2 ^ (c.n - 1))⌋ + (if (1 : ℝ) / 2 ≤ softTarget α then 1 else 0))
    convert this using 1
    ring

example : ∃ α : ℝ, symCall ⟨8, false, false, 1 / 65536⟩ false (0.3 : ℝ) (softTarget α) 128 1 = 1 := by
  refine ⟨initTorch 1, ?_⟩
  rw [softTarget_initTorch (by norm_num) le_rfl]
  have hf : ⌊(0.3 : ℝ) / calculateDelta 128 8 true⌋ = 0 := by
    unfold calculateDelta; rw [Int.floor_eq_iff]; norm_num
  have hd : calculateDelta (128 : ℝ) 8 true = 1 := by unfold calculateDelta; norm_num
  unfold symCall softSym hardTarget effThreshold minInt maxInt
  simp only [Bool.false_eq_true, if_false, hf]
  rw [hd]; unfold npClip; norm_num

/-- **C87** (soft rounding, uniform): within one step of the weight clipped to the adjusted range, and in
evaluation a point of the grid on that range. -/
theorem C87_soft_uniform (w a b α : ℝ) (n : ℕ) (tr : Bool) (h : a < b) (hn : 1 ≤ n) :
    |uniCall n tr w (softTarget α) a b - min (max w (fixRange a b n).1) (fixRange a b n).2| ≤
        ((fixRange a b n).2 - (fixRange a b n).1) / (2 ^ n - 1) ∧
      uniCall n false w (softTarget α) a b ∈ UniformGrid (fixRange a b n).1 (fixRange a b n).2 n := by
  obtain ⟨_, _, _, hlt, _, _, _⟩ := fixRange_spec a b n h hn
  set A := (fixRange a b n).1 with hA
  set B := (fixRange a b n).2 with hB
  have hd := delta_pos hlt hn
  have hcall : ∀ tr, uniCall n tr w (softTarget α) a b = ((B - A) / (2 ^ n - 1)) *
      npClip ((⌊(w - A) / ((B - A) / (2 ^ n - 1))⌋ : ℝ) +
        (if tr then softTarget α else hardTarget (softTarget α))) 0 (2 ^ n - 1) + A := by
    intro tr; unfold uniCall softUni; simp only [← hA, ← hB]
  constructor
  · have e : min (max w A) B = _ := (uniform_clip hlt hn w).symm
    rw [hcall, e]
    have h01 : 0 ≤ (if tr then softTarget α else hardTarget (softTarget α)) ∧
        (if tr then softTarget α else hardTarget (softTarget α)) ≤ 1 := by
      split_ifs
      · exact softTarget_mem α
      · exact hardTarget_mem _
    have := clip_floor_add ((w - A) / ((B - A) / (2 ^ n - 1))) _ 0 (2 ^ n - 1) h01.1 h01.2
    rw [add_sub_add_right_eq_sub, ← mul_sub, abs_mul, abs_of_pos hd]
    calc ((B - A) / (2 ^ n - 1)) * _ ≤ ((B - A) / (2 ^ n - 1)) * 1 := mul_le_mul_of_nonneg_left this hd.le
      _ = _ := mul_one _
  · rw [hcall]
    simp only [Bool.false_eq_true, if_false]
    have e : (⌊(w - A) / ((B - A) / (2 ^ n - 1))⌋ : ℝ) + hardTarget (softTarget α) =
        ((⌊(w - A) / ((B - A) / (2 ^ n - 1))⌋ + (if (1 : ℝ) / 2 ≤ softTarget α then 1 else 0) : ℤ) : ℝ) := by
      unfold hardTarget; split_ifs <;> simp
    have hm : (1 : ℤ) ≤ 2 ^ n := one_le_pow₀ (by norm_num)
    rw [e]
    generalize (⌊(w - A) / ((B - A) / (2 ^ n - 1))⌋ + (if (1 : ℝ) / 2 ≤ softTarget α then 1 else 0)) = k
    have hc : npClip (k : ℝ) 0 (2 ^ n - 1) = ((npClip k 0 (2 ^ n - 1) : ℤ) : ℝ) := by
      have := npClip_cast (K := ℝ) k 0 (2 ^ n - 1); push_cast at this; exact this
    have hmm := npClipZ_mem (k := k) (m := 0) (M := 2 ^ n - 1) (by omega)
    rw [hc]
    refine ⟨(npClip k 0 (2 ^ n - 1)).toNat, ?_, ?_⟩
    · have : ((2 : ℤ) ^ n - 1) = ((2 ^ n - 1 : ℕ) : ℤ) := by
        rw [Nat.cast_sub Nat.one_le_two_pow]; push_cast; rfl
      omega
    · have : (((npClip k 0 (2 ^ n - 1)).toNat : ℕ) : ℝ) = ((npClip k 0 (2 ^ n - 1) : ℤ) : ℝ) := by
        have := Int.toNat_of_nonneg hmm.1
        exact_mod_cast congrArg (fun z : ℤ => (z : ℝ)) this
      rw [this]; ring

example : fixRange (0 : ℝ) 1 1 = (0, 1) := C86_uniform_keras_violated.2.2

/-! ### C91: every rounding can be reached -/

/-- **C91** (soft rounding): for every choice of rounding each weight of a tensor down or up there are values
of the trained variables, one per weight, that make evaluation produce it. -/
theorem C91_soft (c : SymCfg ℝ) (t : ℝ) (hp : c.pot = true → IsPow2 t ∧ c.minT ≤ t) (ws : List ℝ)
    (up : List Bool) (hl : up.length = ws.length) :
    ∃ αs : List ℝ, αs.length = ws.length ∧
      List.zipWith (fun w α => symCall c false w (softTarget α) t 1) ws αs =
        List.zipWith (fun w (u : Bool) => (t / 2 ^ (c.n - 1)) *
          min (max ((⌊w / (t / 2 ^ (c.n - 1))⌋ : ℝ) + (if u then 1 else 0)) (-(2 ^ (c.n - 1))))
            (2 ^ (c.n - 1) - 1)) ws up := by
  refine ⟨up.map (fun u => initTorch (if u then 1 else 0)), by simp [hl], ?_⟩
  rw [List.zipWith_map_right]
  congr 1
  funext w u
  rw [symCall_one c false w _ t hp, softTarget_initTorch (by split_ifs <;> norm_num) (by split_ifs <;> norm_num)]
  have : hardTarget (if u then (1 : ℝ) else 0) = if u then 1 else 0 := by
    unfold hardTarget; cases u <;> norm_num
  simp only [Bool.false_eq_true, if_false, this]
  unfold npClip minInt maxInt
  simp

example : ∃ αs : List ℝ, αs.length = 2 ∧
    List.zipWith (fun w α => symCall ⟨8, false, false, 1 / 65536⟩ false w (softTarget α) 128 1) [0, 10] αs =
      List.zipWith (fun w (u : Bool) => ((128 : ℝ) / 2 ^ (8 - 1)) *
          min (max ((⌊w / ((128 : ℝ) / 2 ^ (8 - 1))⌋ : ℝ) + (if u then 1 else 0)) (-(2 ^ (8 - 1))))
            (2 ^ (8 - 1) - 1)) [0, 10] [true, false] :=
  C91_soft ⟨8, false, false, 1 / 65536⟩ 128 (by simp) [0, 10] [true, false] rfl

end MCT.Train
