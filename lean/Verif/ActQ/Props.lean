/-
C115: quantizing an activation inside the frameworks gives the nearest value that its parameters allow.
-/
import Verif.ActQ.Model
import Verif.Quant.Lemmas
import Verif.Quant.Props
import Verif.Search.Props

namespace MCT.ActQ
open MCT.Quant MCT.Search MCT.QuantSpec

variable {K : Type} [Field K] [LinearOrder K] [IsStrictOrderedRing K] [FloorRing K]

/-! ### Specification -/

/-- The grid of a signed or unsigned integer with full scale `t`. -/
def Grid (signed : Bool) (t : K) (n : ℕ) : Set K := if signed then SignedGrid t n else UnsignedGrid t n

/-- `f` quantizes to the grid of `2^n` equally spaced values over a range that has the length of `[a, b]`, is
moved by at most half a step, and contains zero exactly. -/
def QuantizesRange (a b : K) (n : ℕ) (f : K → Option K) : Prop :=
  ∃ a' b', b' - a' = b - a ∧ |a' - a| ≤ (b - a) / (2 ^ n - 1) / 2 ∧ (0 : K) ∈ UniformGrid a' b' n ∧
    ∀ x, ∃ y, f x = some y ∧ Nearest (UniformGrid a' b' n) x y

/-! ### Rounding to integers -/

theorem int_dist {u : K} {r k : ℤ} (h : |(r : K) - u| ≤ 1 / 2) : |(r : K) - u| ≤ |(k : K) - u| := by
  by_cases hk : k = r
  · rw [hk]
  · have h2 : (1 : K) ≤ |(k : K) - r| := by
      have : (1 : ℤ) ≤ |k - r| := Int.one_le_abs (sub_ne_zero.mpr hk)
      exact_mod_cast this
    have h3 : |(k : K) - r| ≤ |(k : K) - u| + |(r : K) - u| := by
      have := abs_sub_le (k : K) u r
      rwa [abs_sub_comm u (r : K)] at this
    linarith

/-- Rounding and then clipping. -/
theorem round_clip {u : K} {r lo hi : ℤ} (h : |(r : K) - u| ≤ 1 / 2) (hlo : lo ≤ hi) :
    lo ≤ min hi (max lo r) ∧ min hi (max lo r) ≤ hi ∧ ∀ k : ℤ, lo ≤ k → k ≤ hi →
      |((min hi (max lo r) : ℤ) : K) - u| ≤ |(k : K) - u| := by
  refine ⟨le_min hlo (le_max_left _ _), min_le_left _ _, fun k h1 h2 => ?_⟩
  have h1' : (lo : K) ≤ k := by exact_mod_cast h1
  have h2' : (k : K) ≤ hi := by exact_mod_cast h2
  obtain ⟨g1, g2⟩ := abs_le.mp h
  rcases lt_or_ge r lo with hr | hr
  · rw [max_eq_left hr.le, min_eq_right hlo]
    have : (r : K) + 1 ≤ lo := by exact_mod_cast hr
    rw [abs_of_nonneg (by linarith), abs_of_nonneg (by linarith)]
    linarith
  · rw [max_eq_right hr]
    rcases lt_or_ge hi r with hh | hh
    · rw [min_eq_left hh.le]
      have : (hi : K) + 1 ≤ r := by exact_mod_cast hh
      rw [abs_of_nonpos (by linarith), abs_of_nonpos (by linarith)]
      linarith
    · rw [min_eq_right hh]
      exact int_dist h

/-- Clipping and then rounding. -/
theorem clip_round {u : K} {r : ℤ} {N : ℤ} (hN : 0 ≤ N) (h : |(r : K) - min (max u 0) (N : K)| ≤ 1 / 2) :
    0 ≤ r ∧ r ≤ N ∧ ∀ k : ℤ, 0 ≤ k → k ≤ N → |(r : K) - u| ≤ |(k : K) - u| := by
  have hN' : (0 : K) ≤ N := by exact_mod_cast hN
  obtain ⟨g1, g2⟩ := abs_le.mp h
  have c1 : (0 : K) ≤ min (max u 0) (N : K) := le_min (le_max_right _ _) hN'
  have c2 : min (max u 0) (N : K) ≤ N := min_le_right _ _
  have r0 : 0 ≤ r := by
    have : (-1 : K) < r := by linarith
    have : (-1 : ℤ) < r := by exact_mod_cast this
    omega
  have rN : r ≤ N := by
    have : (r : K) < N + 1 := by linarith
    have : r < N + 1 := by exact_mod_cast this
    omega
  refine ⟨r0, rN, fun k k0 kN => ?_⟩
  have k0' : (0 : K) ≤ k := by exact_mod_cast k0
  have kN' : (k : K) ≤ N := by exact_mod_cast kN
  rcases lt_or_ge u 0 with hu | hu
  · rw [max_eq_right hu.le, min_eq_left hN'] at g1 g2
    have : r = 0 := by
      have : (r : K) < 1 := by linarith
      have : r < 1 := by exact_mod_cast this
      omega
    rw [this, Int.cast_zero, abs_of_nonneg (by linarith), abs_of_nonneg (by linarith)]
    linarith
  · rw [max_eq_left hu] at g1 g2
    rcases lt_or_ge (N : K) u with hh | hh
    · rw [min_eq_right hh.le] at g1 g2
      have : r = N := by
        have : (N : K) < r + 1 := by linarith
        have : N < r + 1 := by exact_mod_cast this
        omega
      rw [this, abs_of_nonpos (by linarith), abs_of_nonpos (by linarith)]
      linarith
    · rw [min_eq_left hh] at g1 g2
      exact int_dist (abs_le.mpr ⟨g1, g2⟩)

theorem tfRound_sub_le (x : K) : |(tfRound x : K) - x| ≤ 1 / 2 := by
  unfold tfRound
  have h1 := Int.floor_le (x + 1 / 2)
  have h2 := Int.lt_floor_add_one (x + 1 / 2)
  rw [abs_le]
  constructor <;> linarith

theorem scale_dist {s : K} (hs : 0 < s) {u v x : K} (h : |u - x / s| ≤ |v - x / s|) :
    |u * s - x| ≤ |v * s - x| := by
  have e : ∀ w : K, w * s - x = (w - x / s) * s := fun w => by field_simp
  rw [e u, e v, abs_mul, abs_mul]
  exact mul_le_mul_of_nonneg_right h (abs_nonneg s)

/-! ### PyTorch -/

theorem torchFakeQuant_code {s : K} (hs : 0 < s) (x : K) (z lo hi : ℤ) (h : lo ≤ hi) :
    ∃ k : ℤ, lo ≤ k ∧ k ≤ hi ∧ torchFakeQuant x s z lo hi = ((k - z : ℤ) : K) * s ∧
      ∀ j : ℤ, lo ≤ j → j ≤ hi → |((k - z : ℤ) : K) * s - x| ≤ |((j - z : ℤ) : K) * s - x| := by
  have hr : |((npRound (x / s) + z : ℤ) : K) - (x / s + z)| ≤ 1 / 2 := by
    have := npRound_sub_le (x / s)
    push_cast
    rwa [add_sub_add_right_eq_sub]
  obtain ⟨h1, h2, h3⟩ := round_clip hr h
  refine ⟨_, h1, h2, rfl, fun j j1 j2 => scale_dist hs ?_⟩
  have := h3 j j1 j2
  push_cast at this ⊢
  rwa [sub_sub, sub_sub, add_comm (z : K)]

theorem torch_symmetric_nearest (t : K) (ht : 0 < t) (n : ℕ) (hn : 1 ≤ n) (s : Bool) (x : K) :
    Nearest (Grid s t n) x (torchFakeQuant x (torchRange s n t).2.2 0 (torchRange s n t).1 (torchRange s n t).2.1) := by
  cases s
  · simp only [torchRange, Grid, Bool.false_eq_true, if_false]
    obtain ⟨k, h1, h2, h3, h4⟩ := torchFakeQuant_code (s := t / 2 ^ n) (by positivity) x 0 0 (2 ^ n - 1) (by
      have : (0 : ℤ) < 2 ^ n := by positivity
      omega)
    simp only [sub_zero] at h3 h4
    rw [h3]
    refine ⟨⟨k, h1, h2, rfl⟩, ?_⟩
    rintro z ⟨j, j1, j2, rfl⟩
    exact h4 j j1 j2
  · simp only [torchRange, Grid, if_true]
    obtain ⟨k, h1, h2, h3, h4⟩ := torchFakeQuant_code (s := t / 2 ^ (n - 1)) (by positivity) x 0
      (-2 ^ (n - 1)) (2 ^ (n - 1) - 1) (by
        have : (0 : ℤ) < 2 ^ (n - 1) := by positivity
        omega)
    simp only [sub_zero] at h3 h4
    rw [h3]
    refine ⟨⟨k, h1, h2, rfl⟩, ?_⟩
    rintro z ⟨j, j1, j2, rfl⟩
    exact h4 j j1 j2

theorem isPowerOfTwo_iff (t : K) : isPowerOfTwo t = true ↔ IsPow2 t := by
  unfold isPowerOfTwo IsPow2
  rw [decide_eq_true_eq]
  constructor
  · intro h
    exact ⟨_, h.symm⟩
  · rintro ⟨k, rfl⟩
    have := Int.log_zpow (R := K) (b := 2) (by norm_num) k
    push_cast at this
    rw [this]

/-- **C115, PyTorch, symmetric.** -/
theorem C115_torch_symmetric (p : Params K) (t : K) (ht : 0 < t) (s : Bool) (hp : p.threshold = some t)
    (hs : p.signed = some s) (n : ℕ) (hn : 1 ≤ n) (x : K) :
    ∃ y, torchSymmetric n p x = some y ∧ Nearest (Grid s t n) x y := by
  unfold torchSymmetric
  rw [hp, hs]
  exact ⟨_, rfl, torch_symmetric_nearest t ht n hn s x⟩

/-- **C115, PyTorch, power of two.** The same, and thresholds that are no powers of two are rejected. -/
theorem C115_torch_power_of_two (p : Params K) (t : K) (ht : 0 < t) (s : Bool) (hp : p.threshold = some t)
    (hs : p.signed = some s) (n : ℕ) (hn : 1 ≤ n) (x : K) :
    (IsPow2 t → ∃ y, torchPot n p x = some y ∧ Nearest (Grid s t n) x y) ∧
      (¬ IsPow2 t → torchPot n p x = none) := by
  unfold torchPot
  rw [hp, hs]
  dsimp only
  constructor
  · intro h
    rw [if_pos ((isPowerOfTwo_iff t).mpr h)]
    exact ⟨_, rfl, torch_symmetric_nearest t ht n hn s x⟩
  · intro h
    rw [if_neg (fun hc => h ((isPowerOfTwo_iff t).mp hc))]

/-- **C115, PyTorch, uniform.** The range is first extended to contain zero. -/
theorem C115_torch_uniform (p : Params K) (a b : K) (hab : a < b) (ha : p.rangeMin = some a)
    (hb : p.rangeMax = some b) (n : ℕ) (hn : 1 ≤ n) :
    QuantizesRange (min a 0) (max b 0) n (torchUniform n p) := by
  have e1 : (if a > 0 then 0 else a) = min a 0 := by
    split_ifs with h
    · rw [min_eq_right h.le]
    · rw [min_eq_left (not_lt.mp h)]
  have e2 : (if b < 0 then 0 else b) = max b 0 := by
    split_ifs with h
    · rw [max_eq_right h.le]
    · rw [max_eq_left (not_lt.mp h)]
  have hlt : min a 0 < max b 0 := by
    rcases lt_or_ge 0 b with h | h
    · exact lt_of_le_of_lt (min_le_right _ _) (lt_of_lt_of_le h (le_max_left _ _))
    · exact lt_of_le_of_lt (min_le_left _ _) (lt_of_lt_of_le (lt_of_lt_of_le hab h) (le_max_right _ _))
  set A := min a 0 with hA
  set B := max b 0 with hB
  have hA0 : A ≤ 0 := min_le_right _ _
  have hB0 : 0 ≤ B := le_max_right _ _
  set d := (B - A) / (2 ^ n - 1) with hd
  have hp1 : (0 : K) < 2 ^ n - 1 := two_pow_sub_one_pos hn
  have hdp : 0 < d := div_pos (by linarith) hp1
  set z := npRound (A / d) with hz
  have hfix : fixRange A B n = (d * z, B - A + d * z) := by
    rw [fixRange_eq _ _ _ hlt, if_neg (by linarith), if_neg (by linarith)]
  have hlen : B - A + d * z - d * z = B - A := by ring
  have hdz : d * (z : K) / d = z := by field_simp
  have hmove : |d * (z : K) - A| ≤ d / 2 := by
    have h1 := npRound_sub_le (A / d)
    have e : d * (z : K) - A = ((z : K) - A / d) * d := by field_simp
    rw [e, abs_mul, abs_of_pos hdp]
    have := mul_le_mul_of_nonneg_right h1 hdp.le
    linarith
  have hz0 : z ≤ 0 := by
    have : A / d ≤ ((0 : ℤ) : K) := by
      rw [Int.cast_zero]
      exact div_nonpos_of_nonpos_of_nonneg hA0 hdp.le
    exact npRound_le_of_le this
  have hzn : -(2 ^ n - 1) ≤ z := by
    apply le_npRound_of_le
    push_cast
    rw [le_div_iff₀ hdp]
    have : d * (2 ^ n - 1) = B - A := by rw [hd]; field_simp
    linarith
  refine ⟨d * z, B - A + d * z, hlen, hmove, ?_, ?_⟩
  · refine ⟨(-z).toNat, ?_, ?_⟩
    · have h1 : ((2 ^ n - 1 : ℕ) : ℤ) = 2 ^ n - 1 := by
        rw [Nat.cast_sub Nat.one_le_two_pow]; push_cast; rfl
      omega
    · have : (((-z).toNat : ℕ) : K) = -(z : K) := by
        have : (((-z).toNat : ℕ) : ℤ) = -z := Int.toNat_of_nonneg (by omega)
        exact_mod_cast congrArg (Int.cast (R := K)) this
      rw [this, hlen, ← hd]
      ring
  · intro x
    unfold torchUniform
    rw [ha, hb]
    dsimp only
    rw [e1, e2, if_neg (by rintro (h | h); exacts [hlt.ne h, by omega]), hfix]
    dsimp only
    rw [hlen, ← hd, hdz, npRound_intCast]
    obtain ⟨k, h1, h2, h3, h4⟩ := torchFakeQuant_code hdp x (-z) 0 (2 ^ n - 1) (by
      have : (0 : ℤ) < 2 ^ n := by positivity
      omega)
    refine ⟨_, rfl, ?_⟩
    rw [h3]
    have conv : ∀ j : ℤ, ((j - -z : ℤ) : K) * d = d * z + (j : K) * d := by
      intro j; push_cast; ring
    constructor
    · refine ⟨k.toNat, ?_, ?_⟩
      · have h1 : ((2 ^ n - 1 : ℕ) : ℤ) = 2 ^ n - 1 := by
          rw [Nat.cast_sub Nat.one_le_two_pow]; push_cast; rfl
        omega
      · rw [hlen, ← hd, conv]
        congr 2
        have : ((k.toNat : ℕ) : ℤ) = k := Int.toNat_of_nonneg h1
        exact_mod_cast (congrArg (Int.cast (R := K)) this).symm
    · rintro w ⟨j, j1, rfl⟩
      have := h4 j (by omega) (by
        have h1 : ((2 ^ n - 1 : ℕ) : ℤ) = 2 ^ n - 1 := by
          rw [Nat.cast_sub Nat.one_le_two_pow]; push_cast; rfl
        omega)
      rw [conv (j : ℤ)] at this
      rw [hlen, ← hd]
      simpa using this

end MCT.ActQ
