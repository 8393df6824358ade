/- Straight-through rounding in GPTQ: how far a weight may go and what it can reach. -/
import Verif.Train.Soft

namespace MCT.Train
open MCT.Quant MCT.QuantSpec

set_option linter.unusedSectionVars false
set_option linter.unusedVariables false

variable {K : Type} [Field K] [LinearOrder K] [IsStrictOrderedRing K] [FloorRing K]

/-- **C87** (straight-through, per channel): with `lsb` allowed steps the integer code of a weight moves by at
most `lsb` from the rounded float weight, whatever the trained variable, before it is clipped to the codes of
the quantizer. `T` is the threshold the quantizer uses. -/
theorem C87_ste (n : ℕ) (pot : Bool) (minT : K) (lsb : ℕ) (x aux t : K) (ht : 0 < t) :
    ∃ (T : K) (k : ℤ), 0 < T ∧ (pot = false → T = t) ∧ (pot = true → IsPow2 T) ∧
      |k - npRound (x / (T / 2 ^ (n - 1)))| ≤ lsb ∧
      steCall n pot minT true lsb x aux t =
        (T / 2 ^ (n - 1)) * min (max (k : K) (-(2 ^ (n - 1)))) (2 ^ (n - 1) - 1) ∧
      |steCall n pot minT true lsb x aux t - min (max x (-T)) (T - T / 2 ^ (n - 1))| ≤
        (lsb + 1 / 2) * (T / 2 ^ (n - 1)) := by
  set T := effThreshold t pot minT with hT
  have hTp : 0 < T := effThreshold_pos ht _ _
  have hd : 0 < T / 2 ^ (n - 1) := by positivity
  set d := T / 2 ^ (n - 1) with hdd
  set r := npRound (x / d) with hr
  set ch := npClip aux (-(d * lsb)) (d * lsb) / d with hch
  have hb := npClip_mem (x := aux) (a := -(d * lsb)) (b := d * lsb)
    (by have : 0 ≤ d * (lsb : K) := by positivity
        linarith)
  have hc1 : -(lsb : K) ≤ ch := by rw [hch, le_div_iff₀ hd]; linarith [hb.1]
  have hc2 : ch ≤ lsb := by rw [hch, div_le_iff₀ hd]; linarith [hb.2]
  set k := npRound ((r : K) + ch) with hk
  have hk1 : r - lsb ≤ k := by
    apply le_npRound_of_le; push_cast; linarith
  have hk2 : k ≤ r + lsb := by
    apply npRound_le_of_le; push_cast; linarith
  have hcall : steCall n pot minT true lsb x aux t = d * npClip (k : K) (minInt n true) (maxInt n true) := rfl
  refine ⟨T, k, hTp, ?_, ?_, ?_, ?_, ?_⟩
  · intro h; rw [hT, h]; rfl
  · intro h; rw [hT, h]; exact ⟨_, rfl⟩
  · rw [← hdd, ← hr, abs_le]; constructor <;> omega
  · rw [hcall, ← hdd]; unfold npClip minInt maxInt; simp
  · have e : min (max x (-T)) (T - d) = _ := (signed_clip hTp n x).symm
    rw [hcall, e, ← hdd, ← mul_sub, abs_mul, abs_of_pos hd, mul_comm d]
    refine mul_le_mul_of_nonneg_right ?_ hd.le
    refine (clip_lipschitz _ _ _ _).trans ?_
    have h1 := abs_le.mp (npRound_sub_le (x / d))
    have h2 : ((r : K) - lsb) ≤ k := by exact_mod_cast hk1
    have h3 : (k : K) ≤ r + lsb := by exact_mod_cast hk2
    rw [abs_le]; constructor <;> linarith [h1.1, h1.2]

/-- One step allowed, the variable asks for three: the code moves by one. -/
example : steCall 8 false (1 / 65536 : ℚ) true 1 10 3 128 = 11 := by decide +kernel

/-- **C87** is false per tensor: the configured number of steps is not used. A weight that was to stay (no
step allowed) moves by one, and a weight that was allowed four steps cannot move by two. -/
theorem C87_per_tensor_violated :
    steCall 8 false (1 / 65536 : ℚ) false 0 10 1 128 = 11 ∧
      ∀ aux : ℚ, steCall 8 false (1 / 65536 : ℚ) false 4 10 aux 128 ≤ 11 := by
  refine ⟨by decide +kernel, fun aux => ?_⟩
  have e : steCall 8 false (1 / 65536 : ℚ) false 4 10 aux 128 =
      steCall 8 false (1 / 65536 : ℚ) true 1 10 aux 128 := rfl
  obtain ⟨T, k, hT, hT1, _, hk, hs, _⟩ := C87_ste 8 false (1 / 65536 : ℚ) 1 10 aux 128 (by norm_num)
  rw [e, hs, hT1 rfl]
  have hr : npRound ((10 : ℚ) / (128 / 2 ^ (8 - 1))) = 10 := by decide +kernel
  rw [hT1 rfl, hr, abs_le] at hk
  have hk2 : (k : ℚ) ≤ 11 := by
    have : k ≤ 11 := by have := hk.2; push_cast at this; omega
    exact_mod_cast this
  norm_num
  exact hk2

/-! ### C91: every rounding can be reached -/

/-- **C91** (straight-through, Keras): every list of codes within the allowed steps of the rounded weights and
within the codes of the quantizer is reached by some values of the trained variables. -/
theorem C91_ste_keras (n : ℕ) (pot : Bool) (minT : K) (lsb : ℕ) (t : K) (ht : 0 < t)
    (hp : pot = true → IsPow2 t ∧ minT ≤ t) (xs : List K) (ks : List ℤ)
    (h : List.Forall₂ (fun x k => |k - npRound (x / (t / 2 ^ (n - 1)))| ≤ lsb ∧
      -(2 ^ (n - 1)) ≤ k ∧ k ≤ 2 ^ (n - 1) - 1) xs ks) :
    ∃ auxs : List K, auxs.length = xs.length ∧
      steChannelKeras n pot minT lsb t xs auxs = ks.map (fun k : ℤ => (k : K) * (t / 2 ^ (n - 1))) := by
  induction h with
  | nil => exact ⟨[], rfl, rfl⟩
  | @cons x k xs ks hk _ ih =>
    obtain ⟨auxs, hl, he⟩ := ih
    obtain ⟨hk0, hk1, hk2⟩ := hk
    have hd : 0 < t / 2 ^ (n - 1) := by positivity
    set d := t / 2 ^ (n - 1) with hdd
    refine ⟨(d * ((k - npRound (x / d) : ℤ) : K)) :: auxs, by simp [hl], ?_⟩
    unfold steChannelKeras at he ⊢
    rw [List.zipWith_cons_cons, he, List.map_cons]
    congr 1
    unfold steCall steSym calculateDelta
    simp only [effThreshold_of_pow2 hp, Bool.toNat_true, ← hdd, if_true]
    rw [abs_le] at hk0
    have h1 : -((lsb : ℤ) : K) ≤ ((k - npRound (x / d) : ℤ) : K) := by exact_mod_cast hk0.1
    have h2 : ((k - npRound (x / d) : ℤ) : K) ≤ ((lsb : ℤ) : K) := by exact_mod_cast hk0.2
    rw [Int.cast_natCast] at h1 h2
    have hcl : npClip (d * ((k - npRound (x / d) : ℤ) : K)) (-(d * lsb)) (d * lsb) =
        d * ((k - npRound (x / d) : ℤ) : K) := by
      apply npClip_of_mem
      · have := mul_le_mul_of_nonneg_left h1 hd.le; linarith
      · exact mul_le_mul_of_nonneg_left h2 hd.le
    rw [hcl, mul_div_cancel_left₀ _ hd.ne', ← Int.cast_add, npRound_intCast]
    have e : npRound (x / d) + (k - npRound (x / d)) = k := by ring
    rw [e, minInt_true, maxInt_true, npClip_cast]
    have : npClip k (-(2 ^ (n - 1))) (2 ^ (n - 1) - 1) = k := by unfold npClip; omega
    rw [this, mul_comm]

/-- The weights 0 and 10 become 1 and 10. -/
example : steChannelKeras 8 false (1 / 65536 : ℚ) 1 128 [0, 10] [1, 0] = [1, 10] := by decide +kernel

/-- **C91** (straight-through, PyTorch; partial): all the weights of a channel can be moved together by any number of
steps up to the allowed one, and are then kept within the codes of the quantizer. What is missing is that the
weights of a channel are moved independently, which is false (`C91_ste_torch_violated`). -/
theorem C91_ste_torch_partial (n : ℕ) (pot : Bool) (minT : K) (lsb : ℕ) (t : K) (ht : 0 < t)
    (hp : pot = true → IsPow2 t ∧ minT ≤ t) (xs : List K) (m : ℤ) (hm : |m| ≤ lsb) :
    ∃ aux : K, steChannelTorch n pot minT lsb t xs aux =
      xs.map (fun x => ((max (-(2 ^ (n - 1))) (min (2 ^ (n - 1) - 1)
        (npRound (x / (t / 2 ^ (n - 1))) + m)) : ℤ) : K) * (t / 2 ^ (n - 1))) := by
  have hd : 0 < t / 2 ^ (n - 1) := by positivity
  set d := t / 2 ^ (n - 1) with hdd
  refine ⟨d * (m : K), List.map_congr_left fun x _ => ?_⟩
  unfold steCall steSym calculateDelta
  simp only [effThreshold_of_pow2 hp, Bool.toNat_true, ← hdd, if_true]
  rw [abs_le] at hm
  have h1 : -((lsb : ℤ) : K) ≤ (m : K) := by exact_mod_cast hm.1
  have h2 : (m : K) ≤ ((lsb : ℤ) : K) := by exact_mod_cast hm.2
  rw [Int.cast_natCast] at h1 h2
  have hcl : npClip (d * (m : K)) (-(d * lsb)) (d * lsb) = d * (m : K) := by
    apply npClip_of_mem
    · have := mul_le_mul_of_nonneg_left h1 hd.le; linarith
    · exact mul_le_mul_of_nonneg_left h2 hd.le
  rw [hcl, mul_div_cancel_left₀ _ hd.ne', ← Int.cast_add, npRound_intCast]
  rw [minInt_true, maxInt_true, npClip_cast, mul_comm]
  congr 2
  have hpw : (1 : ℤ) ≤ 2 ^ (n - 1) := one_le_pow₀ (by norm_num)
  unfold npClip
  omega

/-- Both weights go down by two steps; the second is then at the smallest code. -/
example : steChannelTorch 8 false (1 / 65536 : ℚ) 2 128 [0, -127] (-2) = [-2, -128] := by decide +kernel

/-- **C91** is false of the straight-through quantizer of PyTorch, which has one trained variable for all the
weights of a channel: no value of it moves the weight 0 up by one step and leaves the weight 10 where it is,
although both are within the allowed change. -/
theorem C91_ste_torch_violated :
    (∃ auxs, steChannelKeras 8 false (1 / 65536 : ℚ) 1 128 [0, 10] auxs = [1, 10]) ∧
      ∀ aux : ℚ, steChannelTorch 8 false (1 / 65536 : ℚ) 1 128 [0, 10] aux ≠ [1, 10] := by
  refine ⟨⟨[1, 0], by decide +kernel⟩, fun aux h => ?_⟩
  have hd : calculateDelta (effThreshold (128 : ℚ) false (1 / 65536)) 8 true = 1 := by decide +kernel
  have hr0 : npRound (0 : ℚ) = 0 := by decide +kernel
  have hr1 : npRound (10 : ℚ) = 10 := by decide +kernel
  unfold steChannelTorch steCall steSym at h
  simp only [hd, List.map_cons, List.map_nil, List.cons.injEq, if_true, one_mul, div_one, hr0, hr1] at h
  obtain ⟨h0, h1, -⟩ := h
  set ch := npClip aux (-((1 : ℕ) : ℚ)) ((1 : ℕ) : ℚ) with hch
  have hb := npClip_mem (x := aux) (a := -((1 : ℕ) : ℚ)) (b := ((1 : ℕ) : ℚ)) (by norm_num)
  rw [← hch] at hb
  have hb1 : -1 ≤ ch := by simpa using hb.1
  have hb2 : ch ≤ 1 := by simpa using hb.2
  rw [minInt_true, maxInt_true, npClip_cast] at h0 h1
  have h0' : npClip (npRound (((0 : ℤ) : ℚ) + ch)) (-(2 ^ (8 - 1))) (2 ^ (8 - 1) - 1) = 1 := by
    exact_mod_cast h0
  have h1' : npClip (npRound (((10 : ℤ) : ℚ) + ch)) (-(2 ^ (8 - 1))) (2 ^ (8 - 1) - 1) = 10 := by
    exact_mod_cast h1
  have e0 : npRound (((0 : ℤ) : ℚ) + ch) = 1 := by
    unfold npClip at h0'; omega
  have e1 : npRound (((10 : ℤ) : ℚ) + ch) = 10 := by
    unfold npClip at h1'; omega
  have hfl : ⌊((10 : ℤ) : ℚ) + ch⌋ = 10 + ⌊((0 : ℤ) : ℚ) + ch⌋ := by
    rw [Int.floor_intCast_add]; simp
  unfold npRound at e0 e1
  simp only [hfl] at e0 e1
  push_cast at e0 e1
  have e2 : (10 : ℚ) + ch - (10 + (⌊0 + ch⌋ : ℚ)) = 0 + ch - ⌊0 + ch⌋ := by ring
  rw [e2] at e1
  split_ifs at e0 e1 <;> omega

end MCT.Train
