/- Helper lemmas about clipped integer codes. -/
import Verif.Train.Model
import Mathlib.Tactic.Linarith
import Mathlib.Tactic.Ring
import Mathlib.Tactic.FieldSimp
import Mathlib.Tactic.Positivity
import Mathlib.Tactic.NormNum

namespace MCT.Train
open MCT.Quant MCT.QuantSpec

set_option linter.unusedSectionVars false
set_option linter.unusedVariables false

variable {K : Type} [Field K] [LinearOrder K] [IsStrictOrderedRing K] [FloorRing K]

theorem npClip_cast (k m M : ℤ) :
    npClip (k : K) (m : K) (M : K) = ((npClip k m M : ℤ) : K) := by
  unfold npClip; push_cast; rfl

theorem npClipZ_mem {k m M : ℤ} (h : m ≤ M) : m ≤ npClip k m M ∧ npClip k m M ≤ M := by
  unfold npClip; omega

theorem minInt_true (n : ℕ) : (minInt n true : K) = ((-(2 ^ (n - 1)) : ℤ) : K) := by
  simp [minInt]

theorem minInt_false (n : ℕ) : (minInt n false : K) = ((0 : ℤ) : K) := by
  simp [minInt]

theorem maxInt_true (n : ℕ) : (maxInt n true : K) = ((2 ^ (n - 1) - 1 : ℤ) : K) := by
  simp [maxInt]

theorem maxInt_false (n : ℕ) : (maxInt n false : K) = ((2 ^ n - 1 : ℤ) : K) := by
  simp [maxInt]

/-- A code clipped to the signed range is a grid point. -/
theorem signed_code_mem {t : K} {n : ℕ} (k : ℤ) :
    (t / 2 ^ (n - 1)) * npClip (k : K) (minInt n true) (maxInt n true) ∈ SignedGrid t n := by
  have h1 : (1 : ℤ) ≤ 2 ^ (n - 1) := one_le_pow₀ (by norm_num)
  rw [minInt_true, maxInt_true, npClip_cast]
  have hm := npClipZ_mem (k := k) (m := -(2 ^ (n - 1) : ℤ)) (M := 2 ^ (n - 1) - 1) (by omega)
  exact ⟨_, hm.1, hm.2, by ring⟩

theorem unsigned_code_mem {t : K} {n : ℕ} (k : ℤ) :
    (t / 2 ^ n) * npClip (k : K) (minInt n false) (maxInt n false) ∈ UnsignedGrid t n := by
  have h1 : (1 : ℤ) ≤ 2 ^ n := one_le_pow₀ (by norm_num)
  rw [minInt_false, maxInt_false, npClip_cast]
  have hm := npClipZ_mem (k := k) (m := (0 : ℤ)) (M := 2 ^ n - 1) (by omega)
  exact ⟨_, hm.1, hm.2, by ring⟩

/-- Rounding to within a half and then clipping to integer bounds gives a nearest integer of the bounds. -/
theorem clip_nearest {v : K} {k m M : ℤ} (hk : |(k : K) - v| ≤ 1 / 2) (hmM : m ≤ M) {j : ℤ} (hj1 : m ≤ j)
    (hj2 : j ≤ M) : |((npClip k m M : ℤ) : K) - v| ≤ |(j : K) - v| := by
  have hcast : ∀ {a b : ℤ}, a ≤ b → (a : K) ≤ b := fun h => by exact_mod_cast h
  rcases lt_or_ge k m with h | h
  · have he : npClip k m M = m := by unfold npClip; omega
    rw [he]
    have h1 : (k : K) + 1 ≤ m := by exact_mod_cast h
    have h2 := abs_le.mp hk
    have h3 := hcast hj1
    rw [abs_of_nonneg (by linarith), abs_of_nonneg (by linarith)]; linarith
  rcases lt_or_ge M k with h' | h'
  · have he : npClip k m M = M := by unfold npClip; omega
    rw [he]
    have h1 : (M : K) + 1 ≤ k := by exact_mod_cast h'
    have h2 := abs_le.mp hk
    have h3 := hcast hj2
    rw [abs_of_nonpos (by linarith), abs_of_nonpos (by linarith)]; linarith
  · have he : npClip k m M = k := by unfold npClip; omega
    rw [he]
    by_cases e : j = k
    · rw [e]
    · have h2 : (1 : K) ≤ |(j : K) - k| := by
        have : (1 : ℤ) ≤ |j - k| := Int.one_le_abs (by omega)
        exact_mod_cast this
      have h3 : |(j : K) - k| ≤ |(j : K) - v| + |(k : K) - v| := by
        have := abs_add_le ((j : K) - v) (-((k : K) - v))
        rw [abs_neg] at this
        calc |(j : K) - k| = |(j : K) - v + -((k : K) - v)| := by congr 1; ring
          _ ≤ _ := this
      linarith

/-- The scaled form of `clip_nearest` for the signed grid. -/
theorem signed_code_nearest {x t : K} (ht : 0 < t) {n : ℕ} {k : ℤ}
    (hk : |(k : K) - x / (t / 2 ^ (n - 1))| ≤ 1 / 2) :
    Nearest (SignedGrid t n) x
      ((t / 2 ^ (n - 1)) * npClip (k : K) (minInt n true) (maxInt n true)) := by
  refine ⟨signed_code_mem k, ?_⟩
  rintro z ⟨j, hj1, hj2, rfl⟩
  have h1 : (1 : ℤ) ≤ 2 ^ (n - 1) := one_le_pow₀ (by norm_num)
  rw [minInt_true, maxInt_true, npClip_cast]
  set d := t / 2 ^ (n - 1) with hd
  have hdp : 0 < d := by rw [hd]; positivity
  have hn := clip_nearest hk (m := -(2 ^ (n - 1))) (M := 2 ^ (n - 1) - 1) (by omega) hj1 hj2
  have e : ∀ c : K, |d * c - x| = d * |c - x / d| := by
    intro c
    rw [← abs_of_pos hdp, ← abs_mul, abs_of_pos hdp]; congr 1; field_simp
  rw [mul_comm (j : K) d, e, e]
  exact mul_le_mul_of_nonneg_left hn hdp.le

theorem unsigned_code_nearest {x t : K} (ht : 0 < t) {n : ℕ} {k : ℤ}
    (hk : |(k : K) - x / (t / 2 ^ n)| ≤ 1 / 2) :
    Nearest (UnsignedGrid t n) x
      ((t / 2 ^ n) * npClip (k : K) (minInt n false) (maxInt n false)) := by
  refine ⟨unsigned_code_mem k, ?_⟩
  rintro z ⟨j, hj1, hj2, rfl⟩
  have h1 : (1 : ℤ) ≤ 2 ^ n := one_le_pow₀ (by norm_num)
  rw [minInt_false, maxInt_false, npClip_cast]
  set d := t / 2 ^ n with hd
  have hdp : 0 < d := by rw [hd]; positivity
  have hn := clip_nearest hk (m := 0) (M := 2 ^ n - 1) (by omega) hj1 hj2
  have e : ∀ c : K, |d * c - x| = d * |c - x / d| := by
    intro c
    rw [← abs_of_pos hdp, ← abs_mul, abs_of_pos hdp]; congr 1; field_simp
  rw [mul_comm (j : K) d, e, e]
  exact mul_le_mul_of_nonneg_left hn hdp.le

/-- The scaled form of `clip_nearest` for a uniform grid. -/
theorem uniform_code_nearest {x a b : K} (h : a < b) {n : ℕ} (hn : 1 ≤ n) {k : ℤ}
    (hk : |(k : K) - (x - a) / ((b - a) / (2 ^ n - 1))| ≤ 1 / 2) :
    Nearest (UniformGrid a b n) x
      (((b - a) / (2 ^ n - 1)) * npClip (k : K) 0 (2 ^ n - 1) + a) := by
  have hdp := delta_pos h hn
  have h1 : (1 : ℤ) ≤ 2 ^ n := one_le_pow₀ (by norm_num)
  have hc : npClip (k : K) 0 (2 ^ n - 1) = ((npClip k 0 (2 ^ n - 1) : ℤ) : K) := by
    have := npClip_cast (K := K) k 0 (2 ^ n - 1)
    push_cast at this; exact this
  have hm := npClipZ_mem (k := k) (m := (0 : ℤ)) (M := 2 ^ n - 1) (by omega)
  set d := (b - a) / (2 ^ n - 1) with hd
  rw [hc]
  refine ⟨?_, ?_⟩
  · refine ⟨(npClip k 0 (2 ^ n - 1)).toNat, ?_, ?_⟩
    · have : ((2 : ℤ) ^ n - 1) = ((2 ^ n - 1 : ℕ) : ℤ) := by
        rw [Nat.cast_sub Nat.one_le_two_pow]; push_cast; rfl
      omega
    · have : (((npClip k 0 (2 ^ n - 1)).toNat : ℕ) : K) = ((npClip k 0 (2 ^ n - 1) : ℤ) : K) := by
        have := Int.toNat_of_nonneg hm.1
        exact_mod_cast congrArg (fun z : ℤ => (z : K)) this
      rw [this]; ring
  · rintro z ⟨j, hj, rfl⟩
    have hj' : (j : ℤ) ≤ 2 ^ n - 1 := by
      have : ((2 : ℤ) ^ n - 1) = ((2 ^ n - 1 : ℕ) : ℤ) := by
        rw [Nat.cast_sub Nat.one_le_two_pow]; push_cast; rfl
      omega
    have hn := clip_nearest hk (m := 0) (M := 2 ^ n - 1) (by omega) (j := (j : ℤ)) (by omega) hj'
    have e : ∀ c : K, |d * c + a - x| = d * |c - (x - a) / d| := by
      intro c
      rw [← abs_of_pos hdp, ← abs_mul, abs_of_pos hdp]; congr 1; field_simp; ring
    have e2 : a + (j : K) * d = d * ((j : ℤ) : K) + a := by push_cast; ring
    rw [e2, e, e]
    exact mul_le_mul_of_nonneg_left hn hdp.le

/-- The rounding decided by comparing the fractional part with a half is within a half. -/
theorem floor_hard_sub_le (v : K) :
    |((⌊v⌋ + (if (1 : K) / 2 ≤ v - ⌊v⌋ then 1 else 0) : ℤ) : K) - v| ≤ 1 / 2 := by
  have h1 := Int.floor_le v
  have h2 := Int.lt_floor_add_one v
  rw [abs_le]; push_cast
  split_ifs <;> constructor <;> linarith

theorem effThreshold_pos {t : K} (ht : 0 < t) (pot : Bool) (minT : K) : 0 < effThreshold t pot minT := by
  unfold effThreshold; split_ifs
  · unfold maxPowerOfTwo; positivity
  · exact ht

theorem maxPowerOfTwo_of_pow2 {t minT : K} (hp : IsPow2 t) (hm : minT ≤ t) : maxPowerOfTwo t minT = t := by
  obtain ⟨k, rfl⟩ := hp
  unfold maxPowerOfTwo
  rw [max_eq_left hm]
  have : Int.clog 2 ((2 : K) ^ k) = k := by
    have := Int.clog_zpow (R := K) (b := 2) (by norm_num) k
    simpa using this
  rw [this]

theorem effThreshold_of_pow2 {t minT : K} {pot : Bool} (h : pot = true → IsPow2 t ∧ minT ≤ t) :
    effThreshold t pot minT = t := by
  unfold effThreshold; split_ifs with hp
  · exact maxPowerOfTwo_of_pow2 (h hp).1 (h hp).2
  · rfl

end MCT.Train
