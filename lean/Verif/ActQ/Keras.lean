/-
C115 in Keras, agreement of the frameworks, look-up tables, and what does not hold.
-/
import Verif.ActQ.Props

namespace MCT.ActQ
open MCT.Quant MCT.Search MCT.QuantSpec

variable {K : Type} [Field K] [LinearOrder K] [IsStrictOrderedRing K] [FloorRing K]

theorem natCast_two_pow (n : ℕ) : ((2 ^ n - 1 : ℕ) : ℤ) = 2 ^ n - 1 := by
  rw [Nat.cast_sub Nat.one_le_two_pow]; push_cast; rfl

/-- The operation of TensorFlow on a range around zero. -/
theorem tfFakeQuant_code {lo hi : K} (h0 : lo ≤ 0) (h1 : 0 ≤ hi) (h : lo < hi) {n : ℕ} (hn : 2 ≤ n)
    (hn' : n ≤ 16) : ∃ z : ℤ, 0 ≤ z ∧ z ≤ 2 ^ n - 1 ∧
      |(z : K) - -lo / ((hi - lo) / (2 ^ n - 1))| ≤ 1 / 2 ∧
      ∀ x, ∃ k : ℤ, 0 ≤ k ∧ k ≤ 2 ^ n - 1 ∧
        tfFakeQuant x lo hi n = some (((k - z : ℤ) : K) * ((hi - lo) / (2 ^ n - 1))) ∧
        ∀ j : ℤ, 0 ≤ j → j ≤ 2 ^ n - 1 → |((k - z : ℤ) : K) * ((hi - lo) / (2 ^ n - 1)) - x| ≤
          |((j - z : ℤ) : K) * ((hi - lo) / (2 ^ n - 1)) - x| := by
  have hq : (0 : K) < 2 ^ n - 1 := two_pow_sub_one_pos (by omega)
  set d := (hi - lo) / (2 ^ n - 1) with hd
  have hdp : 0 < d := div_pos (by linarith) hq
  have hdq : d * (2 ^ n - 1) = hi - lo := by rw [hd]; field_simp
  have hNN : (0 : ℤ) ≤ 2 ^ n - 1 := by
    have : (0 : ℤ) < 2 ^ n := by positivity
    omega
  have hz0 : ¬ (0 - lo / d < 0) := by
    have := div_nonpos_of_nonpos_of_nonneg h0 hdp.le
    linarith
  have hz1 : ¬ (0 - lo / d > 2 ^ n - 1) := by
    have : -lo / d ≤ 2 ^ n - 1 := by
      rw [div_le_iff₀ hdp]; linarith
    rw [neg_div] at this
    linarith
  have hr := tfRound_sub_le (0 - lo / d)
  set z := tfRound (0 - lo / d) with hz
  have hzz : |(z : K) - -lo / d| ≤ 1 / 2 := by
    rw [neg_div]
    rwa [zero_sub] at hr
  obtain ⟨a1, a2⟩ := abs_le.mp hr
  have z0 : 0 ≤ z := by
    have : (-1 : K) < z := by linarith [not_lt.mp hz0]
    have : (-1 : ℤ) < z := by exact_mod_cast this
    omega
  have z1 : z ≤ 2 ^ n - 1 := by
    have : (z : K) < (2 ^ n - 1 : ℤ) + 1 := by push_cast; linarith [not_lt.mp hz1]
    have : z < (2 ^ n - 1) + 1 := by exact_mod_cast this
    omega
  refine ⟨z, z0, z1, hzz, fun x => ?_⟩
  set c := min (max x ((0 - (z : K)) * d)) ((2 ^ n - 1 - (z : K)) * d) with hc
  have hcu : (c - (0 - (z : K)) * d) / d = min (max (x / d + z) 0) ((2 ^ n - 1 : ℤ) : K) := by
    have e : ∀ w : K, (w - (0 - (z : K)) * d) / d = w / d + z := by intro w; field_simp; ring
    rw [e, hc, ← min_div_div_right hdp.le, ← max_div_div_right hdp.le, ← min_add_add_right,
      ← max_add_add_right]
    congr 2
    · field_simp; ring
    · push_cast; field_simp; ring
  have hk := tfRound_sub_le ((c - (0 - (z : K)) * d) / d)
  rw [hcu] at hk
  obtain ⟨k0, k1, kn⟩ := clip_round hNN hk
  refine ⟨_, k0, k1, ?_, fun j j0 j1 => scale_dist hdp ?_⟩
  · unfold tfFakeQuant
    rw [if_neg (by omega), if_neg (by rintro ⟨e1, e2⟩; linarith), if_neg (not_le.mpr h)]
    dsimp only
    rw [← hd, if_neg hz0, if_neg hz1, ← hz, ← hc, hcu]
    congr 1
    push_cast
    ring
  · have := kn j j0 j1
    push_cast at this ⊢
    rwa [sub_sub, sub_sub, add_comm (z : K)]

/-- **C115, Keras, symmetric.** For 2 to 16 bits. -/
theorem C115_keras_symmetric_partial (p : Params K) (t : K) (ht : 0 < t) (s : Bool) (hp : p.threshold = some t)
    (hs : p.signed = some s) (n : ℕ) (hn : 2 ≤ n) (hn' : n ≤ 16) (x : K) :
    ∃ y, kerasSymmetric n p x = some y ∧ Nearest (Grid s t n) x y := by
  unfold kerasSymmetric
  rw [hp, hs]
  dsimp only
  have hq : (0 : K) < 2 ^ n - 1 := two_pow_sub_one_pos (by omega)
  have h1n : (1 : K) < 2 ^ n := by linarith
  cases s
  · simp only [kerasRange, Grid, Bool.false_eq_true, if_false]
    have hle : t / 2 ^ n < t := div_lt_self ht h1n
    have hstep : (t - t / 2 ^ n - 0) / (2 ^ n - 1) = t / 2 ^ n := by
      rw [div_eq_iff hq.ne']; field_simp; ring
    obtain ⟨z, z0, z1, hz, h⟩ := tfFakeQuant_code (lo := 0) (hi := t - t / 2 ^ n) le_rfl (by linarith)
      (by linarith) hn hn'
    rw [hstep] at hz h
    have : z = 0 := by
      rw [neg_zero, zero_div, sub_zero] at hz
      obtain ⟨g1, g2⟩ := abs_le.mp hz
      have : (z : K) < 1 := by linarith
      have : z < 1 := by exact_mod_cast this
      omega
    subst this
    obtain ⟨k, k0, k1, e, hk⟩ := h x
    simp only [sub_zero] at e hk
    refine ⟨_, e, ⟨k, k0, k1, rfl⟩, ?_⟩
    rintro w ⟨j, j0, j1, rfl⟩
    exact hk j j0 j1
  · simp only [kerasRange, Grid, if_true]
    obtain ⟨m, rfl⟩ : ∃ m, n = m + 1 := ⟨n - 1, by omega⟩
    simp only [Nat.add_sub_cancel]
    have hm : (1 : K) ≤ 2 ^ m := one_le_pow₀ (by norm_num)
    have hle : t / 2 ^ m ≤ t := div_le_self ht.le hm
    have hstep : (t - t / 2 ^ m - -t) / (2 ^ (m + 1) - 1) = t / 2 ^ m := by
      rw [div_eq_iff hq.ne', pow_succ]; field_simp; ring
    obtain ⟨z, z0, z1, hz, h⟩ := tfFakeQuant_code (lo := -t) (hi := t - t / 2 ^ m) (by linarith) (by linarith)
      (by linarith) hn hn'
    rw [hstep] at hz h
    have hz' : z = 2 ^ m := by
      have e : - -t / (t / 2 ^ m) = 2 ^ m := by rw [neg_neg]; field_simp
      rw [e] at hz
      obtain ⟨g1, g2⟩ := abs_le.mp hz
      have a1 : (z : K) < (2 ^ m : ℤ) + 1 := by push_cast; linarith
      have a2 : ((2 ^ m : ℤ) : K) < z + 1 := by push_cast; linarith
      have a1 : z < 2 ^ m + 1 := by exact_mod_cast a1
      have a2 : (2 : ℤ) ^ m < z + 1 := by exact_mod_cast a2
      omega
    subst hz'
    obtain ⟨k, k0, k1, e, hk⟩ := h x
    have hpow : (2 : ℤ) ^ (m + 1) = 2 * 2 ^ m := by ring
    refine ⟨_, e, ⟨k - 2 ^ m, ?_, ?_, ?_⟩, ?_⟩
    · simp only [Nat.add_sub_cancel]; omega
    · simp only [Nat.add_sub_cancel]; omega
    · simp only [Nat.add_sub_cancel]
    · rintro w ⟨j, j0, j1, rfl⟩
      simp only [Nat.add_sub_cancel] at j0 j1 ⊢
      have := hk (j + 2 ^ m) (by omega) (by omega)
      rwa [add_sub_cancel_right] at this

/-- **C115, Keras, power of two.** For 2 to 16 bits. -/
theorem C115_keras_power_of_two_partial (p : Params K) (t : K) (ht : 0 < t) (s : Bool)
    (hp : p.threshold = some t) (hs : p.signed = some s) (n : ℕ) (hn : 2 ≤ n) (hn' : n ≤ 16) (x : K) :
    (IsPow2 t → ∃ y, kerasPot n p x = some y ∧ Nearest (Grid s t n) x y) ∧
      (¬ IsPow2 t → kerasPot n p x = none) := by
  constructor
  · intro h
    obtain ⟨y, h1, h2⟩ := C115_keras_symmetric_partial p t ht s hp hs n hn hn' x
    refine ⟨y, ?_, h2⟩
    rw [← h1]
    unfold kerasPot kerasSymmetric
    rw [hp, hs]
    dsimp only
    rw [if_pos ((isPowerOfTwo_iff t).mpr h)]
  · intro h
    unfold kerasPot
    rw [hp, hs]
    dsimp only
    rw [if_neg (fun hc => h ((isPowerOfTwo_iff t).mp hc))]

/-- **C115, Keras, uniform, partial.** For 2 to 16 bits and ranges that contain zero.  Missing: other ranges
(`C115_keras_range_violated`). -/
theorem C115_keras_uniform_partial (p : Params K) (a b : K) (hab : a < b) (ha0 : a ≤ 0) (hb0 : 0 ≤ b)
    (ha : p.rangeMin = some a) (hb : p.rangeMax = some b) (n : ℕ) (hn : 2 ≤ n) (hn' : n ≤ 16) :
    QuantizesRange a b n (kerasUniform n p) := by
  have hq : (0 : K) < 2 ^ n - 1 := two_pow_sub_one_pos (by omega)
  obtain ⟨z, z0, z1, hz, h⟩ := tfFakeQuant_code ha0 hb0 hab hn hn'
  set d := (b - a) / (2 ^ n - 1) with hd
  have hdp : 0 < d := div_pos (by linarith) hq
  have hlen : b - a + -(z : K) * d - -(z : K) * d = b - a := by ring
  refine ⟨-(z : K) * d, b - a + -(z : K) * d, hlen, ?_, ?_, ?_⟩
  · have e : -(z : K) * d - a = -(((z : K) - -a / d) * d) := by field_simp; ring
    rw [e, abs_neg, abs_mul, abs_of_pos hdp]
    have := mul_le_mul_of_nonneg_right hz hdp.le
    linarith
  · refine ⟨z.toNat, ?_, ?_⟩
    · have := natCast_two_pow n
      omega
    · have : ((z.toNat : ℕ) : K) = (z : K) := by
        have : ((z.toNat : ℕ) : ℤ) = z := Int.toNat_of_nonneg z0
        exact_mod_cast congrArg (Int.cast (R := K)) this
      rw [this, hlen, ← hd]
      ring
  · intro x
    obtain ⟨k, k0, k1, e, hk⟩ := h x
    have conv : ∀ j : ℤ, ((j - z : ℤ) : K) * d = -(z : K) * d + (j : K) * d := by
      intro j; push_cast; ring
    refine ⟨((k - z : ℤ) : K) * d, by unfold kerasUniform; rw [ha, hb]; exact e, ?_, ?_⟩
    · refine ⟨k.toNat, ?_, ?_⟩
      · have := natCast_two_pow n
        omega
      · rw [hlen, ← hd, conv]
        congr 2
        have : ((k.toNat : ℕ) : ℤ) = k := Int.toNat_of_nonneg k0
        exact_mod_cast (congrArg (Int.cast (R := K)) this).symm
    · rintro w ⟨j, j1, rfl⟩
      have := hk j (by omega) (by
        have := natCast_two_pow n
        omega)
      rw [conv (j : ℤ)] at this
      rw [hlen, ← hd]
      simpa using this

/-! ### Agreement -/

theorem nearest_equidistant {G : Set K} {x y z : K} (h : Nearest G x y) (h' : Nearest G x z) :
    |y - x| = |z - x| := le_antisymm (h.2 z h'.1) (h'.2 y h.1)

/-- **C115, agreement.** PyTorch, Keras and the quantizer with which thresholds are selected give values that
are equally far from the input: they are equal, or the input is in the middle between them. -/
theorem C115_agree (p : Params K) (t : K) (ht : 0 < t) (s : Bool) (hp : p.threshold = some t)
    (hs : p.signed = some s) (n : ℕ) (hn : 2 ≤ n) (hn' : n ≤ 16) (x : K) :
    ∃ y1 y2 y3, torchSymmetric n p x = some y1 ∧ kerasSymmetric n p x = some y2 ∧
      quantizeTensor x t n s = some y3 ∧ (y2 = y1 ∨ y1 + y2 = 2 * x) ∧ (y3 = y1 ∨ y1 + y3 = 2 * x) := by
  obtain ⟨y1, e1, h1⟩ := C115_torch_symmetric p t ht s hp hs n (by omega) x
  obtain ⟨y2, e2, h2⟩ := C115_keras_symmetric_partial p t ht s hp hs n hn hn' x
  have h3 : ∃ y3, quantizeTensor x t n s = some y3 ∧ Nearest (Grid s t n) x y3 := by
    cases s
    · obtain ⟨q, g1, g2, _⟩ := C05_unsigned_grid t ht n (by omega) x
      exact ⟨q, g1, g2⟩
    · obtain ⟨q, g1, g2, _⟩ := C05_signed_grid t ht n (by omega) x
      exact ⟨q, g1, g2⟩
  obtain ⟨y3, e3, h3⟩ := h3
  have key : ∀ y : K, Nearest (Grid s t n) x y → y = y1 ∨ y1 + y = 2 * x := by
    intro y hy
    rcases abs_eq_abs.mp (nearest_equidistant hy h1) with h | h
    · left; linarith
    · right; linarith
  exact ⟨y1, y2, y3, e1, e2, e3, key y2 h2, key y3 h3⟩

/-- **C115, zero.** Quantizing zero gives zero. -/
theorem C115_zero (p : Params K) (t : K) (ht : 0 < t) (s : Bool) (hp : p.threshold = some t)
    (hs : p.signed = some s) (n : ℕ) (hn : 2 ≤ n) (hn' : n ≤ 16) :
    torchSymmetric n p 0 = some 0 ∧ kerasSymmetric n p 0 = some 0 := by
  have h0 : (0 : K) ∈ Grid s t n := by
    have h1 : (0 : ℤ) < 2 ^ n := by positivity
    have h2 : (0 : ℤ) < 2 ^ (n - 1) := by positivity
    cases s
    · exact ⟨0, le_rfl, by omega, by simp⟩
    · exact ⟨0, by omega, by omega, by simp⟩
  have key : ∀ y : K, Nearest (Grid s t n) 0 y → y = 0 := by
    intro y hy
    have := hy.2 0 h0
    rw [sub_zero, sub_zero, abs_zero] at this
    exact abs_eq_zero.mp (le_antisymm this (abs_nonneg _))
  obtain ⟨y1, e1, h1⟩ := C115_torch_symmetric p t ht s hp hs n (by omega) 0
  obtain ⟨y2, e2, h2⟩ := C115_keras_symmetric_partial p t ht s hp hs n hn hn' 0
  rw [e1, e2, key y1 h1, key y2 h2]
  exact ⟨rfl, rfl⟩

/-! ### Look-up tables -/

/-- **C115, look-up table.** The result is an entry of the table, scaled by the threshold; it is an entry that is
nearest to the input in units of the table, clipped to the range of the table. -/
theorem C115_lut (lutBits : ℕ) (eps : K) (p : Params K) (s : Bool) (lut : List K) (t : K) (hl : lut ≠ [])
    (h1 : p.signed = some s) (h2 : p.lut = some lut) (h3 : p.threshold = some t) (x : K) :
    ∃ c ∈ lut, lutQuant lutBits eps p x = some (c / 2 ^ (lutBits - s.toNat) * t) ∧
      ∀ c' ∈ lut, |intQuantWithThreshold x t lutBits s eps - c| ≤ |intQuantWithThreshold x t lutBits s eps - c'| := by
  set q := intQuantWithThreshold x t lutBits s eps with hq
  rcases h : argminV (lut.map fun c => |q - c|) with _ | ⟨i, v⟩
  · rw [argminV_none] at h
    simp at h
    exact absurd h hl
  · obtain ⟨hi, e, f1, _⟩ := argminV_spec _ _ _ h
    simp only [List.length_map] at hi
    simp only [List.getElem_map] at e f1
    refine ⟨lut[i], List.getElem_mem hi, ?_, ?_⟩
    · unfold lutQuant
      rw [h1, h2, h3]
      dsimp only
      rw [← hq, h, Option.bind_some, List.getElem?_eq_getElem hi]
      rfl
    · intro c hc
      obtain ⟨j, hj, rfl⟩ := List.mem_iff_getElem.mp hc
      rw [e]
      exact f1 j (by simpa using hj)

/-! ### Examples -/

/-- Signed and unsigned 4 bit quantizers with threshold 2, and a range. -/
example : torchSymmetric 4 ({ threshold := some 2, signed := some true } : Params ℚ) (-7 / 10) = some (-3 / 4) ∧
    kerasSymmetric 4 ({ threshold := some 2, signed := some true } : Params ℚ) (-7 / 10) = some (-3 / 4) ∧
    kerasSymmetric 4 ({ threshold := some 2, signed := some true } : Params ℚ) 9 = some (7 / 4) ∧
    torchSymmetric 4 ({ threshold := some 2, signed := some false } : Params ℚ) (-1) = some 0 ∧
    torchUniform 2 ({ rangeMin := some (-1), rangeMax := some 2 } : Params ℚ) (8 / 5) = some 2 ∧
    kerasUniform 2 ({ rangeMin := some (-1), rangeMax := some 2 } : Params ℚ) (8 / 5) = some 2 ∧
    torchUniform 2 ({ rangeMin := some 1, rangeMax := some 3 } : Params ℚ) (8 / 5) = some 2 := by decide +kernel

example : lutQuant 8 (1 / 1000) ({ threshold := some 2, signed := some true, lut := some [-64, 0, 32] } : Params ℚ)
    (3 / 10) = some (1 / 2) := by decide +kernel

/-! ### Violations -/

/-- **C115 violated: ranges above zero in Keras.** For activations between 1 and 3 (a range that the selection
without clipping returns) the Keras quantizer moves the range to [0, 2] and clips 3 to 2, so that its error is
half of the length of the range; PyTorch extends the range to [0, 3] and keeps 3. -/
theorem C115_keras_range_violated :
    let p : Params ℚ := { rangeMin := some 1, rangeMax := some 3 }
    kerasUniform 8 p 3 = some 2 ∧ torchUniform 8 p 3 = some 3 ∧ ¬ QuantizesRange (min 1 0) (max 3 0) 8 (kerasUniform 8 p) := by
  refine ⟨by decide +kernel, by decide +kernel, ?_⟩
  rintro ⟨a', b', h1, h2, _, h4⟩
  obtain ⟨y, e, hy⟩ := h4 3
  have e3 : kerasUniform 8 ({ rangeMin := some 1, rangeMax := some 3 } : Params ℚ) 3 = some 2 := by decide +kernel
  rw [e3] at e
  have := Option.some.inj e
  subst this
  have h5 := hy.2 b' ⟨2 ^ 8 - 1, le_rfl, by
    have : (((2 ^ 8 - 1 : ℕ)) : ℚ) = 2 ^ 8 - 1 := by norm_num
    rw [this]; field_simp; ring⟩
  rw [show min (1 : ℚ) 0 = 0 by norm_num, show max (3 : ℚ) 0 = 3 by norm_num] at h1 h2
  obtain ⟨g1, g2⟩ := abs_le.mp h2
  norm_num at g1 g2 h5
  have h6 : b' = 3 + a' := by linarith
  rw [h6] at h5
  have : |3 + a' - 3| = |a'| := by congr 1; ring
  rw [this] at h5
  have h7 : |a'| ≤ 1 / 170 := by rw [abs_le]; constructor <;> linarith
  linarith

/-- **C115 violated: bits in Keras.** A single bit, or more than 16, cannot be simulated in Keras, but can in
PyTorch. -/
theorem C115_keras_bits_violated (n : ℕ) (hn : n = 1 ∨ 16 < n) (t : K) (s : Bool) (x : K) :
    kerasSymmetric n { threshold := some t, signed := some s } x = none ∧
      (torchSymmetric n { threshold := some t, signed := some s } x).isSome := by
  constructor
  · unfold kerasSymmetric tfFakeQuant
    dsimp only
    rw [if_pos (by omega)]
  · rfl

end MCT.ActQ
