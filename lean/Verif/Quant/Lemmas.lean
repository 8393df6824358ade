import Verif.Quant.Model
import Verif.Quant.Spec
import Mathlib.Tactic.Linarith
import Mathlib.Tactic.Ring
import Mathlib.Tactic.FieldSimp
import Mathlib.Tactic.Positivity
import Mathlib.Tactic.NormNum
import Mathlib.Tactic.Push

set_option linter.unusedSectionVars false

namespace MCT.Quant

variable {K : Type*} [Field K] [LinearOrder K] [IsStrictOrderedRing K] [FloorRing K]

theorem npRound_bounds (x : K) : ⌊x⌋ ≤ npRound x ∧ npRound x ≤ ⌊x⌋ + 1 := by
  unfold npRound; dsimp only; split_ifs <;> omega

theorem npRound_sub_le (x : K) : |(npRound x : K) - x| ≤ 1 / 2 := by
  have h1 := Int.floor_le x
  have h2 := Int.lt_floor_add_one x
  unfold npRound; dsimp only
  rw [abs_le]
  split_ifs with h h' h'' <;> push_cast <;> constructor <;> linarith

theorem npRound_mono {x y : K} (h : x ≤ y) : npRound x ≤ npRound y := by
  have hf := Int.floor_mono h
  rcases lt_or_eq_of_le hf with hlt | heq
  · have := (npRound_bounds x).2; have := (npRound_bounds y).1; omega
  · unfold npRound; dsimp only; rw [heq]
    have : x - (⌊y⌋ : K) ≤ y - ⌊y⌋ := by linarith
    split_ifs <;> first | omega | (exfalso; linarith) 

theorem npRound_intCast (k : ℤ) : npRound (k : K) = k := by
  unfold npRound; simp

theorem npRound_nearest (x : K) (k : ℤ) : |(npRound x : K) - x| ≤ |(k : K) - x| := by
  by_cases h : k = npRound x
  · rw [h]
  · have h1 := npRound_sub_le x
    have h2 : (1 : K) ≤ |(k : K) - npRound x| := by
      have : (1 : ℤ) ≤ |k - npRound x| := Int.one_le_abs (sub_ne_zero.mpr h)
      have h3 : ((1 : ℤ) : K) ≤ ((|k - npRound x| : ℤ) : K) := by exact_mod_cast this
      simpa using h3
    have h4 : |(k : K) - npRound x| ≤ |(k : K) - x| + |(npRound x : K) - x| := by
      have := abs_sub_le (k : K) x (npRound x)
      rwa [abs_sub_comm x] at this
    linarith

theorem npRound_le_of_le {x : K} {k : ℤ} (h : x ≤ k) : npRound x ≤ k := by
  have := npRound_mono h; rwa [npRound_intCast] at this

theorem le_npRound_of_le {x : K} {k : ℤ} (h : (k : K) ≤ x) : k ≤ npRound x := by
  have := npRound_mono h; rwa [npRound_intCast] at this

theorem two_pow_sub_one_pos {n : ℕ} (hn : 1 ≤ n) : (0 : K) < 2 ^ n - 1 := by
  have : (1 : K) < 2 ^ n := one_lt_pow₀ (by norm_num) (by omega)
  linarith

/-- Closed form of the adjusted range. -/
theorem fixRange_eq (rmin rmax : K) (n : ℕ) (h : rmin < rmax) :
    fixRange rmin rmax n =
      if 0 < rmin then (0, rmax)
      else if rmax < 0 then (rmin, 0)
      else
        let s := (rmax - rmin) / (2 ^ n - 1)
        (s * npRound (rmin / s), rmax - rmin + s * npRound (rmin / s)) := by
  unfold fixRange b2k
  by_cases h1 : 0 < rmin
  · have h2 : ¬ rmax < 0 := by linarith
    simp [h1, h2]
  · by_cases h2 : rmax < 0
    · simp [h1, h2]
    · simp [h1, h2]

/-- Everything the other proofs need about the adjusted range. -/
theorem fixRange_spec (rmin rmax : K) (n : ℕ) (h : rmin < rmax) (hn : 1 ≤ n) :
    ∃ k : ℤ, 0 ≤ k ∧ k ≤ 2 ^ n - 1 ∧
      (fixRange rmin rmax n).1 < (fixRange rmin rmax n).2 ∧
      (fixRange rmin rmax n).1 ≤ 0 ∧ 0 ≤ (fixRange rmin rmax n).2 ∧
      (0 : K) = (fixRange rmin rmax n).1 +
        k * (((fixRange rmin rmax n).2 - (fixRange rmin rmax n).1) / (2 ^ n - 1)) := by
  have hp : (0 : K) < 2 ^ n - 1 := two_pow_sub_one_pos hn
  rw [fixRange_eq _ _ _ h]
  split_ifs with h1 h2
  · refine ⟨0, le_refl _, ?_, ?_, le_refl _, ?_, by simp⟩
    · have : (1:ℤ) ≤ 2 ^ n := one_le_pow₀ (by norm_num)
      linarith
    · simp; linarith
    · simp; linarith
  · refine ⟨2 ^ n - 1, ?_, le_refl _, ?_, ?_, le_refl _, ?_⟩
    · have : (1:ℤ) ≤ 2 ^ n := one_le_pow₀ (by norm_num)
      linarith
    · simp; linarith
    · simp; linarith
    · push_cast; field_simp; ring
  · dsimp only
    set s := (rmax - rmin) / (2 ^ n - 1) with hs
    have hspos : 0 < s := div_pos (by linarith) hp
    have hw : rmax - rmin = s * (2 ^ n - 1) := by rw [hs]; field_simp
    have hle : npRound (rmin / s) ≤ 0 := by
      apply npRound_le_of_le; simp only [Int.cast_zero]
      exact div_nonpos_of_nonpos_of_nonneg (by linarith) hspos.le
    have hge : -((2:ℤ) ^ n - 1) ≤ npRound (rmin / s) := by
      apply le_npRound_of_le; push_cast
      rw [le_div_iff₀ hspos]
      have : rmin = rmax - s * (2 ^ n - 1) := by linarith
      linarith
    have hge' : -((2:K) ^ n - 1) ≤ (npRound (rmin / s) : K) := by exact_mod_cast hge
    have hle' : (npRound (rmin / s) : K) ≤ 0 := by exact_mod_cast hle
    refine ⟨-npRound (rmin / s), by omega, by omega, by linarith, ?_, ?_, ?_⟩
    · exact mul_nonpos_of_nonneg_of_nonpos hspos.le hle'
    · rw [hw]
      have : s * ((2 ^ n - 1) + (npRound (rmin / s) : K)) ≥ 0 := mul_nonneg hspos.le (by linarith)
      linarith
    · have e : rmax - rmin + s * (npRound (rmin / s) : K) - s * npRound (rmin / s) = s * (2 ^ n - 1) := by
        rw [hw]; ring
      rw [e]; push_cast; field_simp; ring

/-- Quantizing on an explicit range `a < b`. -/
def quantOn (x a b : K) (n : ℕ) : K :=
  let delta := (b - a) / (2 ^ n - 1)
  delta * (npRound ((npClip x a b - a) / delta) : K) + a

theorem uniformQuantize_eq (x rmin rmax : K) (n : ℕ) (h : rmin < rmax) (hn : 1 ≤ n) :
    uniformQuantize x rmin rmax n =
      some (quantOn x (fixRange rmin rmax n).1 (fixRange rmin rmax n).2 n) := by
  unfold uniformQuantize quantOn
  have : ¬ (rmin = rmax ∨ n = 0) := by
    push Not; exact ⟨h.ne, by omega⟩
  simp [this]

theorem npClip_mem {x a b : K} (h : a ≤ b) : a ≤ npClip x a b ∧ npClip x a b ≤ b := by
  unfold npClip
  exact ⟨le_min (le_max_right _ _) h, min_le_right _ _⟩

theorem npClip_of_mem {x a b : K} (h1 : a ≤ x) (h2 : x ≤ b) : npClip x a b = x := by
  unfold npClip; rw [max_eq_left h1, min_eq_left h2]

theorem npClip_mono {x y a b : K} (h : x ≤ y) : npClip x a b ≤ npClip y a b := by
  unfold npClip
  exact min_le_min_right _ (max_le_max_right _ h)

theorem delta_pos {a b : K} {n : ℕ} (h : a < b) (hn : 1 ≤ n) : 0 < (b - a) / (2 ^ n - 1) :=
  div_pos (by linarith) (two_pow_sub_one_pos hn)

/-- The integer code of a quantized value. -/
theorem quantOn_code {x a b : K} {n : ℕ} (h : a < b) (hn : 1 ≤ n) :
    ∃ k : ℤ, 0 ≤ k ∧ k ≤ 2 ^ n - 1 ∧ quantOn x a b n = a + k * ((b - a) / (2 ^ n - 1)) := by
  have hd : 0 < (b - a) / (2 ^ n - 1) := delta_pos h hn
  have hp : (0 : K) < 2 ^ n - 1 := two_pow_sub_one_pos hn
  obtain ⟨hc1, hc2⟩ := npClip_mem (x := x) h.le
  refine ⟨npRound ((npClip x a b - a) / ((b - a) / (2 ^ n - 1))), ?_, ?_, ?_⟩
  · apply le_npRound_of_le; simp only [Int.cast_zero]
    exact div_nonneg (by linarith) hd.le
  · apply npRound_le_of_le; push_cast
    rw [div_le_iff₀ hd]
    have : (2 ^ n - 1) * ((b - a) / (2 ^ n - 1)) = b - a := by field_simp
    linarith
  · unfold quantOn; ring

theorem quantOn_of_grid {a b : K} {n : ℕ} (h : a < b) (hn : 1 ≤ n) {k : ℤ} (hk0 : 0 ≤ k)
    (hk : k ≤ 2 ^ n - 1) :
    quantOn (a + k * ((b - a) / (2 ^ n - 1))) a b n = a + k * ((b - a) / (2 ^ n - 1)) := by
  have hd : 0 < (b - a) / (2 ^ n - 1) := delta_pos h hn
  have hp : (0 : K) < 2 ^ n - 1 := two_pow_sub_one_pos hn
  have hk0' : (0 : K) ≤ k := by exact_mod_cast hk0
  have hk' : (k : K) ≤ 2 ^ n - 1 := by exact_mod_cast hk
  have e : (2 ^ n - 1) * ((b - a) / (2 ^ n - 1)) = b - a := by field_simp
  unfold quantOn; dsimp only
  rw [npClip_of_mem]
  · have : (a + k * ((b - a) / (2 ^ n - 1)) - a) / ((b - a) / (2 ^ n - 1)) = (k : K) := by
      rw [add_sub_cancel_left, mul_div_assoc, div_self hd.ne', mul_one]
    rw [this, npRound_intCast]; ring
  · have := mul_nonneg hk0' hd.le; linarith
  · have := mul_le_mul_of_nonneg_right hk' hd.le; linarith

theorem quantOn_mono {x y a b : K} {n : ℕ} (h : a < b) (hn : 1 ≤ n) (hxy : x ≤ y) :
    quantOn x a b n ≤ quantOn y a b n := by
  have hd : 0 < (b - a) / (2 ^ n - 1) := delta_pos h hn
  unfold quantOn; dsimp only
  have h1 : npRound ((npClip x a b - a) / ((b - a) / (2 ^ n - 1))) ≤
      npRound ((npClip y a b - a) / ((b - a) / (2 ^ n - 1))) := by
    apply npRound_mono
    apply div_le_div_of_nonneg_right _ hd.le
    have := npClip_mono (a := a) (b := b) hxy; linarith
  have h2 : ((npRound ((npClip x a b - a) / ((b - a) / (2 ^ n - 1))) : ℤ) : K) ≤
      (npRound ((npClip y a b - a) / ((b - a) / (2 ^ n - 1))) : ℤ) := by exact_mod_cast h1
  have := mul_le_mul_of_nonneg_left h2 hd.le
  linarith

/-- The chosen point is the nearest grid point to the clipped value. -/
theorem quantOn_nearest_clip {x a b : K} {n : ℕ} (h : a < b) (hn : 1 ≤ n) (k : ℤ) :
    |quantOn x a b n - npClip x a b| ≤ |(a + k * ((b - a) / (2 ^ n - 1))) - npClip x a b| := by
  have hd : 0 < (b - a) / (2 ^ n - 1) := delta_pos h hn
  set d := (b - a) / (2 ^ n - 1) with hdd
  set c := npClip x a b
  have key : ∀ j : ℤ, a + (j : K) * d - c = d * ((j : K) - (c - a) / d) := by
    intro j; field_simp; ring
  have e : quantOn x a b n = a + (npRound ((c - a) / d) : K) * d := by
    change d * (npRound ((c - a) / d) : K) + a = _
    ring
  rw [e, key, key, abs_mul, abs_mul]
  exact mul_le_mul_of_nonneg_left (npRound_nearest _ _) (abs_nonneg _)

theorem quantOn_error_clip {x a b : K} {n : ℕ} (h : a < b) (hn : 1 ≤ n) :
    |quantOn x a b n - npClip x a b| ≤ ((b - a) / (2 ^ n - 1)) / 2 := by
  have hd : 0 < (b - a) / (2 ^ n - 1) := delta_pos h hn
  set d := (b - a) / (2 ^ n - 1) with hdd
  set c := npClip x a b
  have e : quantOn x a b n - c = d * ((npRound ((c - a) / d) : K) - (c - a) / d) := by
    have h1 : d * ((c - a) / d) = c - a := mul_div_cancel₀ _ hd.ne'
    rw [mul_sub, h1]
    change d * (npRound ((c - a) / d) : K) + a - c = _
    ring
  rw [e, abs_mul, abs_of_pos hd]
  have := mul_le_mul_of_nonneg_left (npRound_sub_le ((c - a) / d)) hd.le
  linarith

/-- For a value outside the range the distance to a grid point is minimised by the end of the range;
together with `quantOn_nearest_clip` this gives nearest-point for every `x`. -/
theorem quantOn_nearest {x a b : K} {n : ℕ} (h : a < b) (hn : 1 ≤ n) {k : ℤ} (hk0 : 0 ≤ k)
    (hk : k ≤ 2 ^ n - 1) :
    |quantOn x a b n - x| ≤ |(a + k * ((b - a) / (2 ^ n - 1))) - x| := by
  have hd : 0 < (b - a) / (2 ^ n - 1) := delta_pos h hn
  have hp : (0 : K) < 2 ^ n - 1 := two_pow_sub_one_pos hn
  have hk0' : (0 : K) ≤ k := by exact_mod_cast hk0
  have hk' : (k : K) ≤ 2 ^ n - 1 := by exact_mod_cast hk
  have e : (2 ^ n - 1) * ((b - a) / (2 ^ n - 1)) = b - a := by field_simp
  have g1 := mul_nonneg hk0' hd.le
  have g2 := mul_le_mul_of_nonneg_right hk' hd.le
  rcases le_total a x with hax | hax
  · rcases le_total x b with hxb | hxb
    · have := quantOn_nearest_clip (x := x) h hn k
      rwa [npClip_of_mem hax hxb] at this
    · have hc : npClip x a b = b := by unfold npClip; rw [max_eq_left hax, min_eq_right hxb]
      have hq : quantOn x a b n = b := by
        have := quantOn_of_grid h hn (k := 2 ^ n - 1) (by
          have : (1:ℤ) ≤ 2 ^ n := one_le_pow₀ (by norm_num)
          linarith) le_rfl
        push_cast at this
        rw [e, add_sub_cancel] at this
        have hb : npClip b a b = b := npClip_of_mem h.le le_rfl
        unfold quantOn at this ⊢; rw [hc]; rw [hb] at this; exact this
      rw [hq, abs_of_nonpos (by linarith), abs_of_nonpos (by linarith)]
      linarith
  · have hc : npClip x a b = a := by unfold npClip; rw [max_eq_right hax, min_eq_left h.le]
    have hq : quantOn x a b n = a := by
      have := quantOn_of_grid h hn (k := 0) le_rfl (by
          have : (1:ℤ) ≤ 2 ^ n := one_le_pow₀ (by norm_num)
          linarith)
      simp only [Int.cast_zero, zero_mul, add_zero] at this
      have hb : npClip a a b = a := npClip_of_mem le_rfl h.le
      unfold quantOn at this ⊢; rw [hc]; rw [hb] at this; exact this
    rw [hq, abs_of_nonneg (by linarith), abs_of_nonneg (by linarith)]
    linarith

end MCT.Quant

namespace MCT.Quant

variable {K : Type*} [Field K] [LinearOrder K] [IsStrictOrderedRing K] [FloorRing K]

/-- The signed symmetric range is already aligned: the adjustment is the identity. -/
theorem fixRange_signed {t : K} (ht : 0 < t) {n : ℕ} (hn : 1 ≤ n) :
    fixRange (-t) (t - t / 2 ^ (n - 1)) n = (-t, t - t / 2 ^ (n - 1)) := by
  obtain ⟨m, rfl⟩ : ∃ m, n = m + 1 := ⟨n - 1, by omega⟩
  have hm : (1 : K) ≤ 2 ^ m := one_le_pow₀ (by norm_num)
  have hle : t / 2 ^ m ≤ t := div_le_self ht.le hm
  have hmp : (0 : K) < 2 ^ m := by positivity
  have hp : (0 : K) < 2 ^ (m + 1) - 1 := two_pow_sub_one_pos (by omega)
  simp only [Nat.add_sub_cancel]
  rw [fixRange_eq _ _ _ (by linarith)]
  rw [if_neg (by linarith), if_neg (by linarith)]
  have hs : (t - t / 2 ^ m - -t) / (2 ^ (m + 1) - 1) = t / 2 ^ m := by
    rw [div_eq_div_iff hp.ne' hmp.ne', pow_succ]; field_simp; ring
  dsimp only
  rw [hs]
  have hq : -t / (t / 2 ^ m) = ((-(2 ^ m) : ℤ) : K) := by push_cast; field_simp
  rw [hq, npRound_intCast]
  push_cast
  have : t / 2 ^ m * -(2 ^ m) = -t := by field_simp
  rw [this]; ext <;> simp

theorem fixRange_unsigned {t : K} (ht : 0 < t) {n : ℕ} (hn : 1 ≤ n) :
    fixRange 0 (t - t / 2 ^ n) n = (0, t - t / 2 ^ n) := by
  have hm : (1 : K) < 2 ^ n := one_lt_pow₀ (by norm_num) (by omega)
  have hle : t / 2 ^ n < t := div_lt_self ht hm
  rw [fixRange_eq _ _ _ (by linarith)]
  rw [if_neg (by simp), if_neg (by linarith)]
  simp only [zero_div, sub_zero]
  have : npRound (0 : K) = 0 := by simpa using npRound_intCast (K := K) 0
  rw [this]; simp

theorem quantizeTensor_signed {t : K} (ht : 0 < t) {n : ℕ} (hn : 1 ≤ n) (x : K) :
    quantizeTensor x t n true = some (quantOn x (-t) (t - t / 2 ^ (n - 1)) n) := by
  have hm : (1 : K) ≤ 2 ^ (n - 1) := one_le_pow₀ (by norm_num)
  have hle : t / 2 ^ (n - 1) ≤ t := div_le_self ht.le hm
  have := uniformQuantize_eq x (-t) (t - t / 2 ^ (n - 1)) n (by linarith) hn
  rw [fixRange_signed ht hn] at this
  simpa [quantizeTensor, calculateDelta] using this

theorem quantizeTensor_unsigned {t : K} (ht : 0 < t) {n : ℕ} (hn : 1 ≤ n) (x : K) :
    quantizeTensor x t n false = some (quantOn x 0 (t - t / 2 ^ n) n) := by
  have hm : (1 : K) < 2 ^ n := one_lt_pow₀ (by norm_num) (by omega)
  have hle : t / 2 ^ n < t := div_lt_self ht hm
  have := uniformQuantize_eq x 0 (t - t / 2 ^ n) n (by linarith) hn
  rw [fixRange_unsigned ht hn] at this
  simpa [quantizeTensor, calculateDelta] using this

theorem signed_step {t : K} {n : ℕ} (hn : 1 ≤ n) :
    (t - t / 2 ^ (n - 1) - -t) / (2 ^ n - 1) = t / 2 ^ (n - 1) := by
  obtain ⟨m, rfl⟩ : ∃ m, n = m + 1 := ⟨n - 1, by omega⟩
  have hmp : (0 : K) < 2 ^ m := by positivity
  have hp : (0 : K) < 2 ^ (m + 1) - 1 := two_pow_sub_one_pos (by omega)
  simp only [Nat.add_sub_cancel]
  rw [div_eq_div_iff hp.ne' hmp.ne', pow_succ]; field_simp; ring

theorem unsigned_step {t : K} {n : ℕ} (hn : 1 ≤ n) :
    (t - t / 2 ^ n - 0) / (2 ^ n - 1) = t / 2 ^ n := by
  have hmp : (0 : K) < 2 ^ n := by positivity
  have hp : (0 : K) < 2 ^ n - 1 := two_pow_sub_one_pos hn
  rw [div_eq_div_iff hp.ne' hmp.ne']; field_simp; ring

theorem signed_lt {t : K} (ht : 0 < t) (n : ℕ) : -t < t - t / 2 ^ (n - 1) := by
  have hm : (1 : K) ≤ 2 ^ (n - 1) := one_le_pow₀ (by norm_num)
  have hle : t / 2 ^ (n - 1) ≤ t := div_le_self ht.le hm
  linarith

theorem unsigned_lt {t : K} (ht : 0 < t) {n : ℕ} (hn : 1 ≤ n) : 0 < t - t / 2 ^ n := by
  have hm : (1 : K) < 2 ^ n := one_lt_pow₀ (by norm_num) (by omega)
  have hle : t / 2 ^ n < t := div_lt_self ht hm
  linarith

end MCT.Quant
