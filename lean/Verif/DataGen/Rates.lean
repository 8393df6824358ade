/-
C119: the learning rates of a run of data generation; C117: the values of smoothed images.
-/
import Verif.DataGen.Scheduler
import Verif.DataGen.Props

namespace MCT.DataGen.Plateau

/-- The rate after `q` reductions: halved each time, but not below 1/10000. -/
def halved (lr : ℚ) (q : ℕ) : ℚ := max (lr / 2 ^ q) (1 / 10000)

theorem reduce_generation (n : ℕ) (r lr : ℚ) (q : ℕ) (h0 : halved lr q ≤ r)
    (h1 : r ≤ halved lr q + 1 / 100000000) :
    halved lr (q + 1) ≤ reduceLr (ofIterations n) r ∧
      reduceLr (ofIterations n) r ≤ halved lr (q + 1) + 1 / 100000000 := by
  have hstep : halved lr (q + 1) = max (halved lr q / 2) (1 / 10000) := by
    unfold halved
    have : lr / 2 ^ (q + 1) = lr / 2 ^ q / 2 := by rw [pow_succ]; field_simp
    rw [this]
    rcases le_total (lr / 2 ^ q) (1 / 10000) with h | h
    · rw [max_eq_right h, max_eq_right (by linarith), max_eq_right (by norm_num)]
    · rw [max_eq_left h]
  have hlow : (1 : ℚ) / 10000 ≤ halved lr q := le_max_right _ _
  rw [hstep]
  generalize halved lr q = t at h0 h1 hlow
  unfold reduceLr ofIterations
  dsimp only
  rw [show r * (1 / 2) = r / 2 by ring]
  rcases le_total (r / 2) (1 / 10000) with hr | hr
  · rw [max_eq_right hr, max_eq_right (by linarith : t / 2 ≤ 1 / 10000)]
    split_ifs with hs
    · exact ⟨le_refl _, by norm_num⟩
    · rw [gt_iff_lt, not_lt] at hs
      exact ⟨by linarith, by linarith⟩
  · rw [max_eq_left hr]
    have hs : r - r / 2 > 1 / 100000000 := by linarith
    rw [if_pos hs]
    refine ⟨max_le (by linarith) hr, ?_⟩
    have := le_max_left (t / 2) (1 / 10000)
    linarith

/-- **C119 (data generation).**  While the loss stays at a value that is not negative, the rate is halved every
`⌊n / 50⌋ + 2` steps, where `n` is the number of iterations, until it is 1/10000, up to 1/100000000. -/
theorem C119_generation (n : ℕ) (lr x : ℚ) (hlr : 1 / 10000 ≤ lr) (hx : 0 ≤ x) (q m : ℕ) (hm : m < n / 50 + 2)
    (N : ℕ) (hN : q * (n / 50 + 2) + m ≤ N) :
    |rateAfter (ofIterations n) lr (List.replicate N x) (q * (n / 50 + 2) + m) - halved lr q| ≤ 1 / 100000000 := by
  have hrun : rateAfter (ofIterations n) lr (List.replicate N x) (q * (n / 50 + 2) + m) =
      (reduceLr (ofIterations n))^[q] lr := by
    unfold rateAfter
    rw [List.take_replicate, Nat.min_eq_left hN]
    exact C119_plateau (ofIterations n) rfl rfl (by norm_num [ofIterations]) rfl x hx q m hm lr
  rw [hrun]
  have key : halved lr q ≤ (reduceLr (ofIterations n))^[q] lr ∧
      (reduceLr (ofIterations n))^[q] lr ≤ halved lr q + 1 / 100000000 := by
    clear hrun hN hm
    induction q with
    | zero =>
      have : halved lr 0 = lr := by unfold halved; rw [pow_zero, div_one]; exact max_eq_left hlr
      rw [Function.iterate_zero, id, this]
      exact ⟨le_refl _, by norm_num⟩
    | succ q ih =>
      rw [Function.iterate_succ_apply']
      exact reduce_generation n _ lr q ih.1 ih.2
  rw [abs_le]
  exact ⟨by linarith [key.1], by linarith [key.2]⟩

/-- **C119 (data generation).**  The rate stays while each loss is less than 9999/10000 of the one before, and it is
never below 1/10000. -/
theorem C119_generation_bounds (n : ℕ) (lr : ℚ) (hlr : 1 / 10000 ≤ lr) (xs : List ℚ) (k : ℕ) :
    1 / 10000 ≤ rateAfter (ofIterations n) lr xs k ∧
    ((∀ (i : ℕ) (x y : ℚ), xs[i]? = some x → xs[i + 1]? = some y → y < x * (9999 / 10000)) →
      rateAfter (ofIterations n) lr xs k = lr) := by
  constructor
  · have := (C119_rate (ofIterations n) (by norm_num [ofIterations]) lr xs).2.1 k
    refine le_trans ?_ this
    exact le_min hlr (by norm_num [ofIterations])
  · intro h
    refine C119_falling (ofIterations n) rfl rfl lr xs (fun i x y hx hy => ?_) k
    have := h i x y hx hy
    norm_num [ofIterations] at this ⊢
    exact this

example : halved (16 : ℚ) 3 = 2 ∧ halved (1 / 8000 : ℚ) 1 = 1 / 10000 := by
  constructor <;> norm_num [halved]

end MCT.DataGen.Plateau

namespace MCT.DataGen

variable {K : Type} [Field K]

/-- The pixel of a channel in row `i` and column `j`, zero outside. -/
def pixel (m : List (List K)) (i j : ℤ) : K :=
  if i < 0 ∨ j < 0 then 0 else ((m[i.toNat]?).bind fun row => row[j.toNat]?).getD 0

/-- The pixels around `(i, j)` and itself, weighted by the entries of a 3 by 3 kernel. -/
def blurred (k00 k01 k02 k10 k11 k12 k20 k21 k22 : K) (m : List (List K)) (i j : ℤ) : K :=
  k00 * pixel m (i - 1) (j - 1) + k01 * pixel m (i - 1) j + k02 * pixel m (i - 1) (j + 1) +
  k10 * pixel m i (j - 1) + k11 * pixel m i j + k12 * pixel m i (j + 1) +
  k20 * pixel m (i + 1) (j - 1) + k21 * pixel m (i + 1) j + k22 * pixel m (i + 1) (j + 1)

theorem at2_pixel (m : List (List K)) (i j : ℤ) : at2 m i j = pixel m i j := by
  unfold at2 pixel
  by_cases h : 0 ≤ i ∧ 0 ≤ j
  · rw [if_pos h, if_neg (by omega)]
    rw [List.getD_eq_getElem?_getD, List.getD_eq_getElem?_getD]
    cases m[i.toNat]? <;> simp
  · rw [if_neg h, if_pos (by omega)]

theorem sum9 (k00 k01 k02 k10 k11 k12 k20 k21 k22 : K) (m : List (List K)) (i j : ℕ) :
    ((List.range 3).map fun (a : ℕ) => ((List.range 3).map fun (b : ℕ) =>
      at2 [[k00, k01, k02], [k10, k11, k12], [k20, k21, k22]] a b *
        at2 m ((i : ℤ) + a - (1 : ℕ)) ((j : ℤ) + b - (1 : ℕ))).sum).sum =
      blurred k00 k01 k02 k10 k11 k12 k20 k21 k22 m i j := by
  have e : ∀ x : ℤ, x + 2 - 1 = x + 1 := fun x => by omega
  have e' : ∀ x : ℤ, x + 1 - 1 = x := fun x => by omega
  simp only [show List.range 3 = [0, 1, 2] from rfl, List.map_cons, List.map_nil, List.sum_cons, List.sum_nil,
    add_zero, Nat.cast_zero, Nat.cast_one, Nat.cast_ofNat, e, e', at2_pixel m]
  unfold blurred
  simp only [at2, le_refl, true_and, if_true, Int.toNat_zero, Int.toNat_one, List.getD_cons_zero,
    List.getD_cons_succ, zero_le_one, and_self, and_true, show (2 : ℤ).toNat = 2 from rfl,
    show (0 : ℤ) ≤ 2 by decide]
  ring

/-- **C117 (smoothing).**  Each pixel of a smoothed channel is the weighted sum of the pixels around it. -/
theorem C117_smoothed (k00 k01 k02 k10 k11 k12 k20 k21 k22 : K) (m : List (List K)) (h w : ℕ) (hh : m.length = h)
    (hw : ∀ row ∈ m, row.length = w) (i j : ℕ) (hi : i < h) (hj : j < w) :
    ((smoothChannel [[k00, k01, k02], [k10, k11, k12], [k20, k21, k22]] m)[i]?.bind fun row => row[j]?) =
      some (blurred k00 k01 k02 k10 k11 k12 k20 k21 k22 m i j) := by
  have hw' : (m.headD []).length = w := by
    cases m with
    | nil => simp at hh; omega
    | cons r m => exact hw r List.mem_cons_self
  unfold smoothChannel
  dsimp only [List.length_cons, List.length_nil]
  rw [hw', hh, List.getElem?_map, List.getElem?_range (by omega), Option.map_some, Option.bind_some,
    List.getElem?_map, List.getElem?_range (by omega), Option.map_some]
  exact congrArg some (sum9 k00 k01 k02 k10 k11 k12 k20 k21 k22 m i j)

/-- **C117 (smoothing).**  Keras smooths every channel as PyTorch does. -/
theorem C117_smoothed_keras (k00 k01 k02 k10 k11 k12 k20 k21 k22 : K) (img : Img K) (h w : ℕ)
    (hs : Shaped h w 3 img) (c : ℕ) (hc : c < 3) (m : List (List K)) (hm : m.length = h)
    (hmw : ∀ row ∈ m, row.length = w)
    (hch : ∀ i j : ℕ, i < h → j < w → ((img[i]?.bind fun row => row[j]?).bind fun px => px[c]?) =
      (m[i]?.bind fun row => row[j]?)) (i j : ℕ) (hi : i < h) (hj : j < w) :
    (((smoothKeras [[k00, k01, k02], [k10, k11, k12], [k20, k21, k22]] img)[i]?.bind fun row => row[j]?).bind
      fun px => px[c]?) = some (blurred k00 k01 k02 k10 k11 k12 k20 k21 k22 m i j) := by
  have hw' : (img.headD []).length = w := by
    cases hi' : img with
    | nil => have := hs.1; rw [hi'] at this; simp at this; omega
    | cons r t => exact (hs.2 r (by rw [hi']; exact List.mem_cons_self)).1
  have hmap : (img.map fun row => row.map fun px => px.getD c 0) = m := by
    apply List.ext_getElem?
    intro a
    by_cases ha : a < h
    · have h1 : a < img.length := by rw [hs.1]; exact ha
      have h2 : a < m.length := by omega
      rw [List.getElem?_map, List.getElem?_eq_getElem h1, List.getElem?_eq_getElem h2, Option.map_some]
      congr 1
      apply List.ext_getElem?
      intro b
      have hr := hs.2 img[a] (List.getElem_mem h1)
      have hrm := hmw m[a] (List.getElem_mem h2)
      by_cases hb : b < w
      · have := hch a b ha hb
        rw [List.getElem?_eq_getElem h1, List.getElem?_eq_getElem h2, Option.bind_some, Option.bind_some] at this
        have hb1 : b < img[a].length := by rw [hr.1]; exact hb
        have hb2 : b < m[a].length := by omega
        rw [List.getElem?_map]
        rw [List.getElem?_eq_getElem hb1, Option.bind_some, List.getElem?_eq_getElem hb2] at this
        rw [List.getElem?_eq_getElem hb1, List.getElem?_eq_getElem hb2, Option.map_some,
          List.getD_eq_getElem?_getD, this]
        rfl
      · rw [List.getElem?_eq_none (by rw [List.length_map, hr.1]; omega), List.getElem?_eq_none (by omega)]
    · rw [List.getElem?_eq_none (by rw [List.length_map, hs.1]; omega), List.getElem?_eq_none (by omega)]
  unfold smoothKeras
  dsimp only [List.length_cons, List.length_nil]
  rw [hw', hs.1, List.getElem?_map, List.getElem?_range (by omega), Option.map_some, Option.bind_some,
    List.getElem?_map, List.getElem?_range (by omega), Option.map_some, Option.bind_some, List.getElem?_map,
    List.getElem?_range hc, Option.map_some, hmap]
  exact congrArg some (sum9 k00 k01 k02 k10 k11 k12 k20 k21 k22 m i j)

/-- The middle of a channel with three rows, and a corner, where the pixels outside count as zero. -/
example : smoothChannel [[1, 2, 1], [2, 4, 2], [1, 2, 1]] ([[1, 0, 0], [0, 0, 0], [0, 0, 5]] : List (List ℚ)) =
    [[4, 2, 0], [2, 6, 10], [0, 10, 20]] := by decide +kernel

end MCT.DataGen
