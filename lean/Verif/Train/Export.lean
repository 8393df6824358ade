/- What is exported after GPTQ and QAT against what was trained. -/
import Verif.Train.Ste

namespace MCT.Train
open MCT.Quant MCT.QuantSpec

set_option linter.unusedSectionVars false
set_option linter.unusedVariables false

variable {K : Type} [Field K] [LinearOrder K] [IsStrictOrderedRing K] [FloorRing K]

/-! ### The exported quantizers leave grid points alone -/

theorem symInfer_nearest {t : K} (ht : 0 < t) (n : ℕ) (x : K) :
    Nearest (SignedGrid t n) x (symInfer x t n true) :=
  signed_code_nearest ht (npRound_sub_le _)

theorem symInfer_nearest_unsigned {t : K} (ht : 0 < t) (n : ℕ) (x : K) :
    Nearest (UnsignedGrid t n) x (symInfer x t n false) :=
  unsigned_code_nearest ht (npRound_sub_le _)

theorem nearest_self {G : Set K} {x y : K} (h : Nearest G x y) (hx : x ∈ G) : y = x := by
  have := h.2 x hx
  rw [sub_self, abs_zero] at this
  have := abs_nonpos_iff.mp this
  linarith

theorem uniTrain_nearest {a b : K} (h : a < b) {n : ℕ} (hn : 1 ≤ n) (x : K) :
    Nearest (UniformGrid (fixRange a b n).1 (fixRange a b n).2 n) x (uniTrain x a b n) := by
  obtain ⟨_, _, _, hlt, _, _, _⟩ := fixRange_spec a b n h hn
  exact uniform_code_nearest hlt hn (npRound_sub_le _)

/-! ### C88 for GPTQ: quantizing the exported weights again changes nothing -/

/-- **C88** (GPTQ, soft rounding, symmetric): the weights left by training are unchanged by the exported
quantizer with the exported threshold, with or without a learned scale. -/
theorem C88_gptq_symmetric (c : SymCfg ℝ) (w t s α : ℝ) (ht : 0 < t) (hmin : 0 < c.minT) :
    symInfer (symCall c false w (softTarget α) t s) (symExport c t s) c.n true =
      symCall c false w (softTarget α) t s := by
  have hpos : 0 < symExport c t s := by
    unfold symExport maxPowerOfTwo posScale
    split_ifs with h1 h2 h3
    · positivity
    · positivity
    · push Not at h3; positivity
    · exact ht
  refine nearest_self (symInfer_nearest hpos c.n _) ?_
  obtain ⟨g, T, _, hg1, hg2, hT1, _, _, hmem⟩ := C87_soft_symmetric c w t s α false ht hmin
  have e : symExport c t s = T * g ∨ c.pot = true := by
    cases hp : c.pot with
    | true => exact Or.inr rfl
    | false =>
      left
      rw [hT1 hp]
      unfold symExport posScale
      cases hl : c.learning with
      | true => rw [hg2 hl hp]; simp [hp]
      | false => rw [hg1 (Or.inl hl)]; simp [hp]
  rcases e with e | hp
  · rw [e]; exact hmem
  · have : symExport c t s = maxPowerOfTwo t c.minT := by unfold symExport; rw [hp]; rfl
    rw [this]
    have hcall : symCall c false w (softTarget α) t s = (maxPowerOfTwo t c.minT / 2 ^ (c.n - 1)) *
        npClip ((⌊w / (maxPowerOfTwo t c.minT / 2 ^ (c.n - 1))⌋ : ℝ) + hardTarget (softTarget α))
          (minInt c.n true) (maxInt c.n true) := by
      unfold symCall softSym calculateDelta effThreshold; rw [hp]; simp
    rw [hcall]
    have e : (⌊w / (maxPowerOfTwo t c.minT / 2 ^ (c.n - 1))⌋ : ℝ) + hardTarget (softTarget α) =
        ((⌊w / (maxPowerOfTwo t c.minT / 2 ^ (c.n - 1))⌋ +
          (if (1 : ℝ) / 2 ≤ softTarget α then 1 else 0) : ℤ) : ℝ) := by
      unfold hardTarget; split_ifs <;> simp
    rw [e]
    exact signed_code_mem _

example : (0 : ℝ) < 128 ∧ symExport ⟨8, false, true, (1 / 65536 : ℝ)⟩ 128 2 = 256 := by
  constructor
  · norm_num
  · unfold symExport posScale; norm_num

/-- **C88** (GPTQ, soft rounding, uniform): the same with the exported range, which is the one before the
adjustment to zero; the exported quantizer adjusts it in the same way. -/
theorem C88_gptq_uniform (w a b α : ℝ) (n : ℕ) (h : a < b) (hn : 1 ≤ n) :
    uniTrain (uniCall n false w (softTarget α) a b) a b n = uniCall n false w (softTarget α) a b :=
  nearest_self (uniTrain_nearest h hn _) (C87_soft_uniform w a b α n false h hn).2

/-- **C88** (GPTQ, straight-through rounding): the same when the threshold is exported as it is used, that is
when it is not constrained to powers of two or is one already (and not below the minimum). -/
theorem C88_gptq_ste_partial (n : ℕ) (pot perChannel : Bool) (minT : K) (lsb : ℕ) (x aux t : K) (ht : 0 < t)
    (hp : pot = true → IsPow2 t ∧ minT ≤ t) :
    symInfer (steCall n pot minT perChannel lsb x aux t) t n true = steCall n pot minT perChannel lsb x aux t := by
  refine nearest_self (symInfer_nearest ht n _) ?_
  unfold steCall steSym calculateDelta
  simp only [effThreshold_of_pow2 hp]
  exact signed_code_mem _

/-- The exported threshold of the straight-through quantizer is not the one it used when a power-of-two
quantizer was given another threshold: the weight 3 is kept by training (threshold 4) and becomes 9/4 with
the exported threshold 3. -/
theorem C88_gptq_ste_violated :
    steCall 3 true (1 / 65536 : ℚ) true 1 3 0 3 = 3 ∧ symInfer (3 : ℚ) 3 3 true = 9 / 4 := by
  decide +kernel

/-! ### C88 for QAT: training and the exported model quantize alike -/

theorem symConvert_of_pow2 {t : K} {pot : Bool} (h : pot = true → IsPow2 t) : symConvert t pot = t := by
  unfold symConvert; split_ifs with hp
  · obtain ⟨k, rfl⟩ := h hp
    have : Int.clog 2 ((2 : K) ^ k) = k := by
      have := Int.clog_zpow (R := K) (b := 2) (by norm_num) k
      simpa using this
    rw [this]
  · rfl

/-- **C88** (QAT): the exported quantizer and the trained one give the same value on every input, when the
trained threshold is not constrained to powers of two or is one; both give a nearest point of the grid of the
trained threshold. For the other power-of-two quantizers see `C88_qat_pot_violated`. -/
theorem C88_qat_symmetric_partial (x t : K) (n : ℕ) (pot signed : Bool) (ht : 0 < t)
    (hp : pot = true → IsPow2 t) :
    symInfer x (symConvert t pot) n signed = symTrain x t n signed ∧
      Nearest (if signed then SignedGrid t n else UnsignedGrid t n) x (symTrain x t n signed) := by
  rw [symConvert_of_pow2 hp]
  refine ⟨rfl, ?_⟩
  cases signed with
  | true => exact symInfer_nearest ht n x
  | false => exact symInfer_nearest_unsigned ht n x

example : symConvert (1 / 4 : ℝ) true = 1 / 4 := symConvert_of_pow2 (fun _ => ⟨-2, by norm_num⟩)

/-- **C88** (QAT, straight-through weights): their threshold is fixed when training starts, and the exported
quantizer agrees with the trained one for every threshold. -/
theorem C88_qat_ste_weights (x t minT : K) (n : ℕ) (pot : Bool) :
    symInfer x (symConvert (symInit t pot minT) pot) n true = symTrain x (symInit t pot minT) n true := by
  have : symConvert (symInit t pot minT) pot = symInit t pot minT := by
    apply symConvert_of_pow2
    intro h; unfold symInit effThreshold; rw [h]; exact ⟨_, rfl⟩
  rw [this]; rfl

/-- **C88** is false of the power-of-two quantizers whose threshold is trained (LSQ weights and activations,
straight-through activations): for **every** trained threshold that is not a power of two there are inputs
that the exported quantizer maps elsewhere. -/
theorem C88_qat_pot_violated (t : K) (ht : 0 < t) (hn2 : ¬ IsPow2 t) (n : ℕ) (hn : 1 ≤ n) (signed : Bool) :
    ∃ x, symInfer x (symConvert t true) n signed ≠ symTrain x t n signed := by
  set T := symConvert t true with hT
  have hTp : 0 < T := by rw [hT]; unfold symConvert; simp only [if_true]; positivity
  have hle : t ≤ T := by
    rw [hT]; unfold symConvert; simp only [if_true]
    have := Int.self_le_zpow_clog (R := K) (b := 2) (by norm_num) t
    simpa using this
  have hlt : t < T := lt_of_le_of_ne hle (fun e => hn2 (by
    rw [e, hT]; unfold symConvert; simp only [if_true]; exact ⟨Int.clog 2 t, rfl⟩))
  cases signed with
  | true =>
    refine ⟨-T, ?_⟩
    have h1 : (1 : ℤ) ≤ 2 ^ (n - 1) := one_le_pow₀ (by norm_num)
    have hmem : -T ∈ SignedGrid T n := ⟨-(2 ^ (n - 1)), le_refl _, by omega, by
      push_cast; field_simp⟩
    rw [nearest_self (symInfer_nearest hTp n (-T)) hmem]
    obtain ⟨k, hk1, hk2, hk⟩ := (symInfer_nearest ht n (-T)).1
    have e : symTrain (-T) t n true = symInfer (-T) t n true := rfl
    rw [e, hk]
    have hk' : -(2 ^ (n - 1)) ≤ (k : K) := by exact_mod_cast hk1
    have hd : 0 < t / 2 ^ (n - 1) := by positivity
    have := mul_le_mul_of_nonneg_right hk' hd.le
    have e2 : -(2 ^ (n - 1)) * (t / 2 ^ (n - 1)) = -t := by field_simp
    rw [e2] at this
    intro h; linarith
  | false =>
    refine ⟨T - T / 2 ^ n, ?_⟩
    have h1 : (2 : ℤ) ≤ 2 ^ n := by
      calc (2 : ℤ) = 2 ^ 1 := by norm_num
        _ ≤ 2 ^ n := pow_le_pow_right₀ (by norm_num) hn
    have hmem : T - T / 2 ^ n ∈ UnsignedGrid T n := ⟨2 ^ n - 1, by omega, le_refl _, by
      push_cast; field_simp⟩
    rw [nearest_self (symInfer_nearest_unsigned hTp n _) hmem]
    obtain ⟨k, hk1, hk2, hk⟩ := (symInfer_nearest_unsigned ht n (T - T / 2 ^ n)).1
    have e : symTrain (T - T / 2 ^ n) t n false = symInfer (T - T / 2 ^ n) t n false := rfl
    rw [e, hk]
    have hk' : (k : K) ≤ 2 ^ n - 1 := by exact_mod_cast hk2
    have hd : 0 < t / 2 ^ n := by positivity
    have := mul_le_mul_of_nonneg_right hk' hd.le
    have e2 : ((2 : K) ^ n - 1) * (t / 2 ^ n) = t * (1 - 1 / 2 ^ n) := by field_simp
    rw [e2] at this
    have e3 : T - T / 2 ^ n = T * (1 - 1 / 2 ^ n) := by ring
    have hm : (1 : K) < 2 ^ n := one_lt_pow₀ (by norm_num) (by omega)
    have h4 : 0 < 1 - 1 / (2 : K) ^ n := by
      rw [sub_pos, div_lt_one (by positivity)]; exact hm
    have := mul_lt_mul_of_pos_right hlt h4
    rw [e3]
    intro h; linarith

/-- Three is such a threshold: with three bits the value 1 is kept by the exported quantizer and becomes 3/4
in training. -/
example : symConvert (3 : ℚ) true = 4 ∧ symInfer (1 : ℚ) (symConvert 3 true) 3 true = 1 ∧
    symTrain (1 : ℚ) 3 3 true = 3 / 4 := by decide +kernel

/-! ### C92: the quantizers of the toolkit agree -/

theorem round_clip (v : K) (m M : ℤ) (h : m ≤ M) :
    npClip ((npRound v : ℤ) : K) (m : K) M = ((npRound (npClip v (m : K) M) : ℤ) : K) := by
  have hc : (m : K) ≤ M := by exact_mod_cast h
  rcases lt_or_ge v m with h1 | h1
  · have e : npClip v (m : K) M = m := by unfold npClip; rw [max_eq_right h1.le, min_eq_left hc]
    rw [e, npRound_intCast]
    have : ((npRound v : ℤ) : K) ≤ m := by exact_mod_cast npRound_le_of_le h1.le
    unfold npClip; rw [max_eq_right this, min_eq_left hc]
  rcases le_or_gt v M with h2 | h2
  · rw [npClip_of_mem h1 h2]
    apply npClip_of_mem
    · exact_mod_cast le_npRound_of_le h1
    · exact_mod_cast npRound_le_of_le h2
  · have e : npClip v (m : K) M = M := by unfold npClip; rw [max_eq_left h1, min_eq_right h2.le]
    rw [e, npRound_intCast]
    have : (M : K) ≤ ((npRound v : ℤ) : K) := by exact_mod_cast le_npRound_of_le h2.le
    unfold npClip; rw [max_eq_left (hc.trans this), min_eq_right this]

theorem npRound_add_even (v : K) (j : ℤ) (hj : j % 2 = 0) : npRound (v + j) = npRound v + j := by
  unfold npRound
  simp only [Int.floor_add_intCast]
  have e : v + (j : K) - ((⌊v⌋ + j : ℤ) : K) = v - ⌊v⌋ := by push_cast; ring
  rw [e]
  split_ifs <;> omega

/-- **C92** (uniform): training quantizes every value exactly as the post-training quantizer. -/
theorem C92_uniform (x a b : K) (n : ℕ) (h : a < b) (hn : 1 ≤ n) :
    uniformQuantize x a b n = some (uniTrain x a b n) := by
  obtain ⟨_, _, _, hlt, _, _, _⟩ := fixRange_spec a b n h hn
  rw [uniformQuantize_eq x a b n h hn]
  unfold uniTrain quantOn
  simp only
  set A := (fixRange a b n).1
  set B := (fixRange a b n).2
  have hd := delta_pos hlt hn
  have hm : (1 : ℤ) ≤ 2 ^ n := one_le_pow₀ (by norm_num)
  have hcl := uniform_clip hlt hn x
  have e : (npClip x A B - A) / ((B - A) / (2 ^ n - 1)) =
      npClip ((x - A) / ((B - A) / (2 ^ n - 1))) 0 (2 ^ n - 1) := by
    rw [← hcl, add_sub_cancel_right, mul_div_cancel_left₀ _ hd.ne']
  have := round_clip ((x - A) / ((B - A) / (2 ^ n - 1))) 0 (2 ^ n - 1) (by omega)
  push_cast at this
  rw [e, this]

/-- **C92** (symmetric): the same for the symmetric quantizers, with at least two bits when signed. -/
theorem C92_symmetric (x t : K) (n : ℕ) (signed : Bool) (ht : 0 < t) (hn : 1 + signed.toNat ≤ n) :
    quantizeTensor x t n signed = some (symTrain x t n signed) := by
  cases signed with
  | true =>
    have hn1 : 1 ≤ n := by simp at hn; omega
    have hn2 : 2 ≤ n := by simp at hn; omega
    rw [quantizeTensor_signed ht hn1]
    congr 1
    unfold quantOn symTrain
    simp only [signed_step hn1, Bool.toNat_true]
    have hd : 0 < t / 2 ^ (n - 1) := by positivity
    have hm : (1 : ℤ) ≤ 2 ^ (n - 1) := one_le_pow₀ (by norm_num)
    have hcl := signed_clip ht n x
    have e : (npClip x (-t) (t - t / 2 ^ (n - 1)) - -t) / (t / 2 ^ (n - 1)) =
        npClip (x / (t / 2 ^ (n - 1))) (minInt n true) (maxInt n true) + ((2 ^ (n - 1) : ℤ) : K) := by
      rw [← hcl]; push_cast; field_simp; ring
    have hev : (2 ^ (n - 1) : ℤ) % 2 = 0 := by
      obtain ⟨m, rfl⟩ : ∃ m, n = m + 2 := ⟨n - 2, by omega⟩
      rw [show m + 2 - 1 = m + 1 by omega, pow_succ]; omega
    rw [e, npRound_add_even _ _ hev, minInt_true, maxInt_true, round_clip _ _ _ (by omega)]
    push_cast
    field_simp
    ring
  | false =>
    have hn1 : 1 ≤ n := by simpa using hn
    rw [quantizeTensor_unsigned ht hn1]
    congr 1
    unfold quantOn symTrain
    simp only [unsigned_step hn1, Bool.toNat_false, Nat.sub_zero]
    have hd : 0 < t / 2 ^ n := by positivity
    have hm : (1 : ℤ) ≤ 2 ^ n := one_le_pow₀ (by norm_num)
    have e : (npClip x 0 (t - t / 2 ^ n) - 0) / (t / 2 ^ n) =
        npClip (x / (t / 2 ^ n)) (minInt n false) (maxInt n false) := by
      rw [sub_zero, div_eq_iff hd.ne', mul_comm, mul_clip hd]
      congr 1
      · field_simp
      · simp [minInt]
      · simp only [maxInt, Bool.toNat_false, Nat.sub_zero]; field_simp
    rw [e, minInt_false, maxInt_false, round_clip _ _ _ (by omega), add_zero]

example : quantizeTensor (3 / 10 : ℚ) 2 8 true = some (19 / 64) ∧ symTrain (3 / 10 : ℚ) 2 8 true = 19 / 64 := by
  decide +kernel

/-- With one signed bit they differ on a tie. -/
theorem C92_one_bit_violated :
    quantizeTensor (-1 / 2 : ℚ) 1 1 true = some (-1) ∧ symTrain (-1 / 2 : ℚ) 1 1 true = 0 := by
  decide +kernel

end MCT.Train
