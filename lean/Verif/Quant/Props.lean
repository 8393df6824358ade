import Verif.Quant.Lemmas
import Mathlib.Data.Finset.Card
import Mathlib.Data.Finset.Lattice.Fold
import Mathlib.Data.Rat.Floor

set_option linter.unusedSectionVars false

/-!
# Property theorems C01–C06 (quantizers)
-/

namespace MCT.Quant

open MCT.QuantSpec

variable {K : Type*} [Field K] [LinearOrder K] [IsStrictOrderedRing K] [FloorRing K]

/-! ## C01: output on a `2^n` grid inside the adjusted range -/

/-- C01. For a proper range and at least one bit, every element is quantized (no NaN) to a point of
the `2^n`-point uniform grid on the adjusted range, and lies in that range. -/
theorem C01_output_on_grid (rmin rmax : K) (n : ℕ) (h : rmin < rmax) (hn : 1 ≤ n) (x : K) :
    ∃ q, uniformQuantize x rmin rmax n = some q ∧
      q ∈ UniformGrid (fixRange rmin rmax n).1 (fixRange rmin rmax n).2 n ∧
      (fixRange rmin rmax n).1 ≤ q ∧ q ≤ (fixRange rmin rmax n).2 := by
  obtain ⟨_, _, _, hab, _, _, _⟩ := fixRange_spec rmin rmax n h hn
  refine ⟨_, uniformQuantize_eq x rmin rmax n h hn, ?_⟩
  obtain ⟨k, hk0, hk, e⟩ := quantOn_code (x := x) hab hn
  have hd := delta_pos (K := K) hab hn
  have hp : (0 : K) < 2 ^ n - 1 := two_pow_sub_one_pos hn
  have hk0' : (0 : K) ≤ k := by exact_mod_cast hk0
  have hk' : (k : K) ≤ 2 ^ n - 1 := by exact_mod_cast hk
  have ee : (2 ^ n - 1) * (((fixRange rmin rmax n).2 - (fixRange rmin rmax n).1) / (2 ^ n - 1)) =
    (fixRange rmin rmax n).2 - (fixRange rmin rmax n).1 := by field_simp
  have g1 := mul_nonneg hk0' hd.le
  have g2 := mul_le_mul_of_nonneg_right hk' hd.le
  rw [e]
  refine ⟨⟨k.toNat, ?_, ?_⟩, by linarith, by linarith⟩
  · have h2 : (1:ℕ) ≤ 2 ^ n := Nat.one_le_two_pow
    zify [h2]
    rw [Int.toNat_of_nonneg hk0]; exact hk
  · have : ((k.toNat : ℕ) : K) = ((k : ℤ) : K) := by
      have := Int.toNat_of_nonneg hk0
      exact_mod_cast congrArg (Int.cast : ℤ → K) this
    rw [this]

example : (-1 : ℚ) < 2 ∧ 1 ≤ 3 := by norm_num

/-- C01. A quantized tensor (of any length) has at most `2^n` distinct values. -/
theorem C01_at_most_two_pow_levels (rmin rmax : K) (n : ℕ) (h : rmin < rmax) (hn : 1 ≤ n)
    (xs : List K) :
    (xs.filterMap (fun x => uniformQuantize x rmin rmax n)).toFinset.card ≤ 2 ^ n ∧
    (xs.filterMap (fun x => uniformQuantize x rmin rmax n)).length = xs.length := by
  constructor
  · let f : ℕ → K := fun k => (fixRange rmin rmax n).1 + (k : K) *
      (((fixRange rmin rmax n).2 - (fixRange rmin rmax n).1) / (2 ^ n - 1))
    have hsub : (xs.filterMap (fun x => uniformQuantize x rmin rmax n)).toFinset ⊆
        (Finset.range (2 ^ n)).image f := by
      intro q hq
      simp only [List.mem_toFinset, List.mem_filterMap] at hq
      obtain ⟨x, _, hx⟩ := hq
      obtain ⟨q', hq', ⟨k, hk, e⟩, _⟩ := C01_output_on_grid rmin rmax n h hn x
      rw [hq'] at hx; cases hx
      simp only [Finset.mem_image, Finset.mem_range]
      refine ⟨k, ?_, e.symm⟩
      have : (1:ℕ) ≤ 2 ^ n := Nat.one_le_two_pow
      omega
    calc _ ≤ _ := Finset.card_le_card hsub
      _ ≤ _ := Finset.card_image_le
      _ = 2 ^ n := Finset.card_range _
  · induction xs with
    | nil => rfl
    | cons x xs ih =>
      obtain ⟨q, hq, _⟩ := C01_output_on_grid rmin rmax n h hn x
      simp [hq, ih]

/-! ## C02: the adjusted range contains an exact zero -/

/-- C02. The adjusted range is a proper range around zero, zero is one of the grid points and a zero
input is quantized to exactly zero. -/
theorem C02_zero_exact (rmin rmax : K) (n : ℕ) (h : rmin < rmax) (hn : 1 ≤ n) :
    (fixRange rmin rmax n).1 < (fixRange rmin rmax n).2 ∧
    (fixRange rmin rmax n).1 ≤ 0 ∧ 0 ≤ (fixRange rmin rmax n).2 ∧
    (0 : K) ∈ UniformGrid (fixRange rmin rmax n).1 (fixRange rmin rmax n).2 n ∧
    uniformQuantize 0 rmin rmax n = some 0 := by
  obtain ⟨k, hk0, hk, hab, ha, hb, e⟩ := fixRange_spec rmin rmax n h hn
  have hq : uniformQuantize 0 rmin rmax n = some 0 := by
    rw [uniformQuantize_eq _ _ _ _ h hn]
    have := quantOn_of_grid hab hn hk0 hk
    rw [← e] at this
    rw [this]
  refine ⟨hab, ha, hb, ?_, hq⟩
  obtain ⟨q, hq', hmem, _⟩ := C01_output_on_grid rmin rmax n h hn 0
  rw [hq] at hq'; cases hq'; exact hmem

/-- C02. When the given range straddles zero, its width is kept and both ends move by at most half a
step; otherwise the end nearer to zero is replaced by zero and the other end is kept. -/
theorem C02_range_moves_little (rmin rmax : K) (n : ℕ) (h : rmin < rmax) (hn : 1 ≤ n) :
    (rmin ≤ 0 → 0 ≤ rmax →
      (fixRange rmin rmax n).2 - (fixRange rmin rmax n).1 = rmax - rmin ∧
      |(fixRange rmin rmax n).1 - rmin| ≤ ((rmax - rmin) / (2 ^ n - 1)) / 2 ∧
      |(fixRange rmin rmax n).2 - rmax| ≤ ((rmax - rmin) / (2 ^ n - 1)) / 2) ∧
    (0 < rmin → fixRange rmin rmax n = (0, rmax)) ∧
    (rmax < 0 → fixRange rmin rmax n = (rmin, 0)) := by
  rw [fixRange_eq _ _ _ h]
  refine ⟨?_, ?_, ?_⟩
  · intro h1 h2
    rw [if_neg (by linarith), if_neg (by linarith)]
    dsimp only
    set s := (rmax - rmin) / (2 ^ n - 1) with hs
    have hspos : 0 < s := delta_pos h hn
    have key : |s * (npRound (rmin / s) : K) - rmin| ≤ s / 2 := by
      have : s * (npRound (rmin / s) : K) - rmin = s * ((npRound (rmin / s) : K) - rmin / s) := by
        field_simp
      rw [this, abs_mul, abs_of_pos hspos]
      have := mul_le_mul_of_nonneg_left (npRound_sub_le (rmin / s)) hspos.le
      linarith
    refine ⟨by ring, key, ?_⟩
    have : rmax - rmin + s * (npRound (rmin / s) : K) - rmax = s * npRound (rmin / s) - rmin := by
      ring
    rw [this]; exact key
  · intro h1; rw [if_pos h1]
  · intro h1; rw [if_neg (by linarith), if_pos h1]

example : (-1 : ℚ) ≤ 0 ∧ (0 : ℚ) ≤ 2 ∧ (-1 : ℚ) < 2 := by norm_num

/-! ## C03: idempotent and monotone -/

/-- C03. Uniform quantization is idempotent and monotone. -/
theorem C03_uniform (rmin rmax : K) (n : ℕ) (h : rmin < rmax) (hn : 1 ≤ n) :
    (∀ x q, uniformQuantize x rmin rmax n = some q → uniformQuantize q rmin rmax n = some q) ∧
    (∀ x y p q, x ≤ y → uniformQuantize x rmin rmax n = some p →
      uniformQuantize y rmin rmax n = some q → p ≤ q) := by
  obtain ⟨_, _, _, hab, _, _, _⟩ := fixRange_spec rmin rmax n h hn
  constructor
  · intro x q hq
    rw [uniformQuantize_eq _ _ _ _ h hn] at hq ⊢
    injection hq with hq
    obtain ⟨k, hk0, hk, e⟩ := quantOn_code (x := x) hab hn
    rw [← hq, e, quantOn_of_grid hab hn hk0 hk]
  · intro x y p q hxy hp hq
    rw [uniformQuantize_eq _ _ _ _ h hn] at hp hq
    injection hp with hp; injection hq with hq
    rw [← hp, ← hq]; exact quantOn_mono hab hn hxy

/-- C03. Symmetric (and power-of-two) quantization is idempotent and monotone. -/
theorem C03_symmetric (t : K) (ht : 0 < t) (n : ℕ) (hn : 1 ≤ n) (signed : Bool) :
    (∀ x, ∃ q, quantizeTensor x t n signed = some q ∧ quantizeTensor q t n signed = some q) ∧
    (∀ x y p q, x ≤ y → quantizeTensor x t n signed = some p →
      quantizeTensor y t n signed = some q → p ≤ q) := by
  cases signed with
  | true =>
    have hab := signed_lt ht n
    constructor
    · intro x
      obtain ⟨k, hk0, hk, e⟩ := quantOn_code (x := x) hab hn
      refine ⟨_, quantizeTensor_signed ht hn x, ?_⟩
      rw [quantizeTensor_signed ht hn, e, quantOn_of_grid hab hn hk0 hk]
    · intro x y p q hxy hp hq
      rw [quantizeTensor_signed ht hn] at hp hq
      injection hp with hp; injection hq with hq
      rw [← hp, ← hq]; exact quantOn_mono hab hn hxy
  | false =>
    have hab := unsigned_lt ht hn
    constructor
    · intro x
      obtain ⟨k, hk0, hk, e⟩ := quantOn_code (x := x) hab hn
      refine ⟨_, quantizeTensor_unsigned ht hn x, ?_⟩
      rw [quantizeTensor_unsigned ht hn, e, quantOn_of_grid hab hn hk0 hk]
    · intro x y p q hxy hp hq
      rw [quantizeTensor_unsigned ht hn] at hp hq
      injection hp with hp; injection hq with hq
      rw [← hp, ← hq]; exact quantOn_mono hab hn hxy

example : uniformQuantize (7/10 : ℚ) (-1) 2 2 = some 1 ∧ uniformQuantize (1 : ℚ) (-1) 2 2 = some 1 := by
  decide +kernel

/-! ## C04: nearest grid point, half-a-step error -/

/-- C04. The result is a nearest point of the grid, the error of an in-range value is at most half a
step, and an out-of-range value is mapped to the nearer end. -/
theorem C04_nearest_and_error (rmin rmax : K) (n : ℕ) (h : rmin < rmax) (hn : 1 ≤ n) (x q : K)
    (hq : uniformQuantize x rmin rmax n = some q) :
    Nearest (UniformGrid (fixRange rmin rmax n).1 (fixRange rmin rmax n).2 n) x q ∧
    ((fixRange rmin rmax n).1 ≤ x → x ≤ (fixRange rmin rmax n).2 →
      |q - x| ≤ (((fixRange rmin rmax n).2 - (fixRange rmin rmax n).1) / (2 ^ n - 1)) / 2) ∧
    (x ≤ (fixRange rmin rmax n).1 → q = (fixRange rmin rmax n).1) ∧
    ((fixRange rmin rmax n).2 ≤ x → q = (fixRange rmin rmax n).2) := by
  obtain ⟨_, _, _, hab, _, _, _⟩ := fixRange_spec rmin rmax n h hn
  obtain ⟨q', hq', hmem, h1, h2⟩ := C01_output_on_grid rmin rmax n h hn x
  rw [hq'] at hq; cases hq
  have e := hq'
  rw [uniformQuantize_eq _ _ _ _ h hn] at e
  injection e with e
  have near : ∀ z ∈ UniformGrid (fixRange rmin rmax n).1 (fixRange rmin rmax n).2 n,
      |q - x| ≤ |z - x| := by
    rintro z ⟨k, hk, rfl⟩
    rw [← e]
    have h2 : (1:ℕ) ≤ 2 ^ n := Nat.one_le_two_pow
    have := quantOn_nearest (x := x) hab hn (k := (k : ℤ)) (by positivity) (by
      zify [h2] at hk; exact hk)
    simpa using this
  have hend : (fixRange rmin rmax n).2 ∈
      UniformGrid (fixRange rmin rmax n).1 (fixRange rmin rmax n).2 n := by
    refine ⟨2 ^ n - 1, le_rfl, ?_⟩
    have hp : (0 : K) < 2 ^ n - 1 := two_pow_sub_one_pos hn
    have h2 : (1:ℕ) ≤ 2 ^ n := Nat.one_le_two_pow
    push_cast [h2]; field_simp; ring
  have hstart : (fixRange rmin rmax n).1 ∈
      UniformGrid (fixRange rmin rmax n).1 (fixRange rmin rmax n).2 n := ⟨0, by omega, by simp⟩
  refine ⟨⟨hmem, near⟩, ?_, ?_, ?_⟩
  · intro ha hb
    have := quantOn_error_clip (x := x) hab hn
    rw [npClip_of_mem ha hb, e] at this; exact this
  · intro hx
    have := near _ hstart
    rw [abs_of_nonneg (by linarith), abs_of_nonneg (by linarith)] at this
    linarith
  · intro hx
    have := near _ hend
    rw [abs_of_nonpos (by linarith), abs_of_nonpos (by linarith)] at this
    linarith

example : uniformQuantize (3/5 : ℚ) (-1) 2 2 = some 1 := by decide +kernel

/-! ## C05: the symmetric quantizer uses the two's-complement grid -/

/-- C05 (signed). -/
theorem C05_signed_grid (t : K) (ht : 0 < t) (n : ℕ) (hn : 1 ≤ n) (x : K) :
    ∃ q, quantizeTensor x t n true = some q ∧ Nearest (SignedGrid t n) x q ∧
      (-t ≤ x → x ≤ t - t / 2 ^ (n - 1) → |q - x| ≤ (t / 2 ^ (n - 1)) / 2) ∧
      (x ≤ -t → q = -t) ∧ (t - t / 2 ^ (n - 1) ≤ x → q = t - t / 2 ^ (n - 1)) := by
  have hab := signed_lt ht n
  have hstep := signed_step (t := t) hn
  have hpow : (2:ℤ) ^ n = 2 * 2 ^ (n - 1) := by
    obtain ⟨m, rfl⟩ : ∃ m, n = m + 1 := ⟨n - 1, by omega⟩
    simp [pow_succ]; ring
  have hpp : (0:K) < 2 ^ (n - 1) := by positivity
  have tconv : ∀ k : ℤ, -t + (k : K) * (t / 2 ^ (n - 1)) =
      ((k - 2 ^ (n - 1) : ℤ) : K) * (t / 2 ^ (n - 1)) := by
    intro k; push_cast; field_simp; ring
  have near : ∀ z ∈ SignedGrid t n, |quantOn x (-t) (t - t / 2 ^ (n - 1)) n - x| ≤ |z - x| := by
    rintro z ⟨k, hk1, hk2, rfl⟩
    have := quantOn_nearest (x := x) hab hn (k := k + 2 ^ (n - 1)) (by omega) (by omega)
    rw [hstep, tconv] at this
    simpa using this
  have hstart : -t ∈ SignedGrid t n :=
    ⟨-(2 ^ (n - 1)), le_rfl, by have : (0:ℤ) < 2 ^ (n - 1) := by positivity
                                omega, by push_cast; field_simp⟩
  have hend : t - t / 2 ^ (n - 1) ∈ SignedGrid t n :=
    ⟨2 ^ (n - 1) - 1, by have : (0:ℤ) < 2 ^ (n - 1) := by positivity
                         omega, le_rfl, by push_cast; field_simp⟩
  have hmem : quantOn x (-t) (t - t / 2 ^ (n - 1)) n ∈ SignedGrid t n := by
    obtain ⟨k, hk0, hk, e⟩ := quantOn_code (x := x) hab hn
    rw [hstep, tconv] at e
    exact ⟨k - 2 ^ (n - 1), by omega, by omega, e⟩
  have hrange : -t ≤ quantOn x (-t) (t - t / 2 ^ (n - 1)) n ∧
      quantOn x (-t) (t - t / 2 ^ (n - 1)) n ≤ t - t / 2 ^ (n - 1) := by
    obtain ⟨k, hk1, hk2, e⟩ := hmem
    have h1 : (-(2 ^ (n - 1)) : K) ≤ k := by exact_mod_cast hk1
    have h2 : (k : K) ≤ 2 ^ (n - 1) - 1 := by exact_mod_cast hk2
    have hd : 0 < t / 2 ^ (n - 1) := by positivity
    have g1 := mul_le_mul_of_nonneg_right h1 hd.le
    have g2 := mul_le_mul_of_nonneg_right h2 hd.le
    have e1 : -(2:K) ^ (n - 1) * (t / 2 ^ (n - 1)) = -t := by field_simp
    have e2 : ((2:K) ^ (n - 1) - 1) * (t / 2 ^ (n - 1)) = t - t / 2 ^ (n - 1) := by field_simp
    rw [e]; constructor <;> linarith
  refine ⟨_, quantizeTensor_signed ht hn x, ⟨hmem, near⟩, ?_, ?_, ?_⟩
  · intro ha hb
    have := quantOn_error_clip (x := x) hab hn
    rwa [npClip_of_mem ha hb, hstep] at this
  · intro hx
    have := near _ hstart
    rw [abs_of_nonneg (by linarith [hrange.1]), abs_of_nonneg (by linarith)] at this
    linarith [hrange.1]
  · intro hx
    have := near _ hend
    rw [abs_of_nonpos (by linarith [hrange.2]), abs_of_nonpos (by linarith)] at this
    linarith [hrange.2]

/-- C05 (unsigned). -/
theorem C05_unsigned_grid (t : K) (ht : 0 < t) (n : ℕ) (hn : 1 ≤ n) (x : K) :
    ∃ q, quantizeTensor x t n false = some q ∧ Nearest (UnsignedGrid t n) x q ∧
      (0 ≤ x → x ≤ t - t / 2 ^ n → |q - x| ≤ (t / 2 ^ n) / 2) ∧
      (x ≤ 0 → q = 0) ∧ (t - t / 2 ^ n ≤ x → q = t - t / 2 ^ n) := by
  have hab := unsigned_lt ht hn
  have hstep := unsigned_step (t := t) hn
  have hpp : (0:K) < 2 ^ n := by positivity
  have near : ∀ z ∈ UnsignedGrid t n, |quantOn x 0 (t - t / 2 ^ n) n - x| ≤ |z - x| := by
    rintro z ⟨k, hk1, hk2, rfl⟩
    have := quantOn_nearest (x := x) hab hn hk1 hk2
    rw [hstep] at this
    simpa using this
  have h2n : (0:ℤ) < 2 ^ n := by positivity
  have hstart : (0:K) ∈ UnsignedGrid t n := ⟨0, le_rfl, by omega, by simp⟩
  have hend : t - t / 2 ^ n ∈ UnsignedGrid t n :=
    ⟨2 ^ n - 1, by omega, le_rfl, by push_cast; field_simp⟩
  have hmem : quantOn x 0 (t - t / 2 ^ n) n ∈ UnsignedGrid t n := by
    obtain ⟨k, hk0, hk, e⟩ := quantOn_code (x := x) hab hn
    rw [hstep, zero_add] at e
    exact ⟨k, hk0, hk, e⟩
  have hrange : 0 ≤ quantOn x 0 (t - t / 2 ^ n) n ∧
      quantOn x 0 (t - t / 2 ^ n) n ≤ t - t / 2 ^ n := by
    obtain ⟨k, hk1, hk2, e⟩ := hmem
    have h1 : (0 : K) ≤ k := by exact_mod_cast hk1
    have h2 : (k : K) ≤ 2 ^ n - 1 := by exact_mod_cast hk2
    have hd : 0 < t / 2 ^ n := by positivity
    have g1 := mul_nonneg h1 hd.le
    have g2 := mul_le_mul_of_nonneg_right h2 hd.le
    have e2 : ((2:K) ^ n - 1) * (t / 2 ^ n) = t - t / 2 ^ n := by field_simp
    rw [e]; constructor <;> linarith
  refine ⟨_, quantizeTensor_unsigned ht hn x, ⟨hmem, near⟩, ?_, ?_, ?_⟩
  · intro ha hb
    have := quantOn_error_clip (x := x) hab hn
    rwa [npClip_of_mem ha hb, hstep] at this
  · intro hx
    have := near _ hstart
    rw [abs_of_nonneg (by linarith [hrange.1]), abs_of_nonneg (by linarith)] at this
    linarith [hrange.1]
  · intro hx
    have := near _ hend
    rw [abs_of_nonpos (by linarith [hrange.2]), abs_of_nonpos (by linarith)] at this
    linarith [hrange.2]

example : quantizeTensor (3 : ℚ) 2 3 true = some (3/2) ∧ quantizeTensor (-7/10 : ℚ) 2 3 true = some (-1/2) := by
  decide +kernel

/-! ## C06: `max_power_of_two` -/

/-- C06. `max_power_of_two` returns the least power of two covering `max(x, min_threshold)`. -/
theorem C06_least_pow2 (x m : K) (hm : 0 < m) :
    IsPow2 (maxPowerOfTwo x m) ∧ max x m ≤ maxPowerOfTwo x m ∧
    maxPowerOfTwo x m < 2 * max x m ∧
    ∀ t : K, IsPow2 t → max x m ≤ t → maxPowerOfTwo x m ≤ t := by
  have hpos : 0 < max x m := lt_of_lt_of_le hm (le_max_right _ _)
  have hself : max x m ≤ (2:K) ^ Int.clog 2 (max x m) := by
    exact_mod_cast Int.self_le_zpow_clog (b := 2) (by norm_num) (max x m)
  have hpred : (2:K) ^ (Int.clog 2 (max x m) - 1) < max x m := by
    exact_mod_cast Int.zpow_pred_clog_lt_self (b := 2) (by norm_num) hpos
  refine ⟨⟨_, rfl⟩, hself, ?_, ?_⟩
  · unfold maxPowerOfTwo
    have : (2:K) ^ Int.clog 2 (max x m) = 2 * 2 ^ (Int.clog 2 (max x m) - 1) := by
      rw [zpow_sub_one₀ (by norm_num)]; field_simp
    rw [this]; linarith
  · rintro t ⟨k, rfl⟩ ht
    unfold maxPowerOfTwo
    apply zpow_le_zpow_right₀ (by norm_num)
    by_contra hlt
    push Not at hlt
    have : (2:K) ^ k ≤ 2 ^ (Int.clog 2 (max x m) - 1) :=
      zpow_le_zpow_right₀ (by norm_num) (by omega)
    linarith

example : maxPowerOfTwo (3 : ℚ) (1/65536) = 4 ∧ maxPowerOfTwo (4 : ℚ) (1/65536) = 4 := by
  decide +kernel

/-- C04. A value exactly between two neighbouring grid points goes to the one with the even index. -/
theorem C04_ties_to_even (rmin rmax : K) (n : ℕ) (h : rmin < rmax) (hn : 1 ≤ n) (k : ℕ) (hk : k + 1 ≤ 2 ^ n - 1) :
    let a := (fixRange rmin rmax n).1
    let d := ((fixRange rmin rmax n).2 - a) / (2 ^ n - 1)
    uniformQuantize (a + (k + 1 / 2) * d) rmin rmax n = some (a + (if k % 2 = 0 then (k : K) else k + 1) * d) := by
  intro a d
  obtain ⟨_, _, _, hab, _, _, _⟩ := fixRange_spec rmin rmax n h hn
  have hp : (1 : K) < 2 ^ n := one_lt_pow₀ (by norm_num) (by omega)
  have hd : 0 < d := div_pos (sub_pos.2 hab) (by linarith)
  have hb : (fixRange rmin rmax n).2 = a + (2 ^ n - 1) * d := by
    show _ = a + (2 ^ n - 1) * (((fixRange rmin rmax n).2 - a) / (2 ^ n - 1))
    rw [mul_div_cancel₀ _ (by linarith : (2 ^ n - 1 : K) ≠ 0)]; ring
  have hk' : (k : K) + 1 ≤ 2 ^ n - 1 := by
    have h1 : (k + 1 : ℕ) + 1 ≤ 2 ^ n := by have := Nat.one_le_two_pow (n := n); omega
    have h2 : ((k + 1 : ℕ) : K) + 1 ≤ 2 ^ n := by exact_mod_cast h1
    push_cast at h2; linarith
  have hk0 : (0 : K) ≤ k := Nat.cast_nonneg k
  have hclip : npClip (a + (k + 1 / 2) * d) a (fixRange rmin rmax n).2 = a + (k + 1 / 2) * d := by
    unfold npClip
    rw [max_eq_left (by nlinarith), min_eq_left (by rw [hb]; nlinarith)]
  have hround : npRound ((k : K) + 1 / 2) = if k % 2 = 0 then (k : ℤ) else k + 1 := by
    have hf : ⌊(k : K) + 1 / 2⌋ = (k : ℤ) := by
      rw [Int.floor_eq_iff]; constructor
      · push_cast; linarith
      · push_cast; linarith
    unfold npRound
    simp only [hf]
    have : (k : K) + 1 / 2 - ((k : ℤ) : K) = 1 / 2 := by push_cast; ring
    rw [this]
    simp only [lt_irrefl, if_false]
    by_cases he : k % 2 = 0
    · rw [if_pos he, if_pos (by omega)]
    · rw [if_neg he, if_neg (by omega)]
  unfold uniformQuantize
  rw [if_neg (by rintro (h1 | h1); exacts [absurd h1 h.ne, by omega])]
  simp only
  rw [hclip]
  have hq : (a + (k + 1 / 2) * d - a) / d = (k : K) + 1 / 2 := by
    rw [add_sub_cancel_left]; exact mul_div_cancel_right₀ _ hd.ne'
  have hq' : (a + (k + 1 / 2) * d - (fixRange rmin rmax n).1) /
      (((fixRange rmin rmax n).2 - (fixRange rmin rmax n).1) / (2 ^ n - 1)) = (k : K) + 1 / 2 := hq
  rw [hq', hround]
  congr 1
  split <;> push_cast <;> show d * _ + a = _ <;> ring

/-- Grid -1, 0, 1, 2: one half goes to the grid point of index 2, -1/2 to index 0. -/
example : uniformQuantize (1/2 : ℚ) (-1) 2 2 = some 1 ∧ uniformQuantize (-1/2 : ℚ) (-1) 2 2 = some (-1) := by
  decide +kernel

end MCT.Quant
