/-
C116: the default metrics.
-/
import Verif.XQuant.Props
import Mathlib.Tactic

namespace MCT.XQuant

theorem dot_nil (y : List ℝ) : dot [] y = 0 := by simp [dot]

theorem dot_cons (a b : ℝ) (x y : List ℝ) : dot (a :: x) (b :: y) = a * b + dot x y := by simp [dot]

theorem dot_self_nonneg (x : List ℝ) : 0 ≤ dot x x := by
  induction x with
  | nil => simp [dot]
  | cons a x ih => rw [dot_cons]; nlinarith [mul_self_nonneg a]

theorem dot_self_eq_zero (x : List ℝ) : dot x x = 0 ↔ ∀ a ∈ x, a = 0 := by
  induction x with
  | nil => simp [dot]
  | cons a x ih =>
    rw [dot_cons]
    have h1 := mul_self_nonneg a
    have h2 := dot_self_nonneg x
    constructor
    · intro h
      have ha : a * a = 0 := by linarith
      have hx : dot x x = 0 := by linarith
      intro b hb
      rcases List.mem_cons.1 hb with rfl | hb
      · exact mul_self_eq_zero.1 ha
      · exact ih.1 hx b hb
    · intro h
      rw [h a (by simp), ih.2 (fun b hb => h b (List.mem_cons_of_mem _ hb))]
      simp

theorem cauchy_schwarz (x y : List ℝ) (h : x.length = y.length) :
    dot x y ^ 2 ≤ dot x x * dot y y := by
  induction x generalizing y with
  | nil => simp [dot]
  | cons a x ih =>
    cases y with
    | nil => simp at h
    | cons b y =>
      have ih := ih y (by simpa using h)
      simp only [dot_cons]
      have hX := dot_self_nonneg x
      have hY := dot_self_nonneg y
      generalize dot x y = S at *
      generalize dot x x = P at *
      generalize dot y y = Q at *
      have key : 2 * (a * b * S) ≤ a * a * Q + b * b * P := by
        have h0 : 0 ≤ a * a * Q + b * b * P :=
          add_nonneg (mul_nonneg (mul_self_nonneg a) hY) (mul_nonneg (mul_self_nonneg b) hX)
        apply le_of_abs_le
        apply abs_le_of_sq_le_sq _ h0
        have h1 : (2 * (a * b * S)) ^ 2 = 4 * (a * a * (b * b)) * S ^ 2 := by ring
        have h2 : (4 * (a * a * (b * b))) * S ^ 2 ≤ 4 * (a * a * (b * b)) * (P * Q) :=
          mul_le_mul_of_nonneg_left ih
            (mul_nonneg (by norm_num) (mul_nonneg (mul_self_nonneg a) (mul_self_nonneg b)))
        nlinarith [sq_nonneg (a * a * Q - b * b * P)]
      nlinarith

theorem zipWith_sub_zero (x y : List ℝ) (h : x.length = y.length) :
    (∀ a ∈ List.zipWith (· - ·) x y, a = 0) ↔ x = y := by
  induction x generalizing y with
  | nil => cases y <;> simp_all
  | cons a x ih =>
    cases y with
    | nil => simp at h
    | cons b y =>
      have ih := ih y (by simpa using h)
      simp only [List.zipWith_cons_cons, List.mem_cons, forall_eq_or_imp, ih, List.cons.injEq, sub_eq_zero]

theorem mse_eq (x y : List ℝ) (h : x.length = y.length) (hx : x ≠ []) :
    mse x y = some (dot (List.zipWith (· - ·) x y) (List.zipWith (· - ·) x y) / (x.length : ℝ)) := by
  unfold mse diff
  rw [if_pos h, Option.bind_some]
  unfold meanSq
  have hl : (List.zipWith (· - ·) x y).length = x.length := by simp [h]
  rw [if_neg, hl]
  intro e
  rw [e] at hl
  exact hx (List.length_eq_zero_iff.1 hl.symm)

theorem length_pos_real {x : List ℝ} (hx : x ≠ []) : (0 : ℝ) < (x.length : ℝ) := by
  exact_mod_cast List.length_pos_iff.2 hx

/-- **C116.** The mean squared error of two tensors of the same size is defined, is not negative, and is zero
exactly when the tensors are equal. -/
theorem C116_mse (x y : List ℝ) (h : x.length = y.length) (hx : x ≠ []) :
    ∃ v, mse x y = some v ∧ 0 ≤ v ∧ (v = 0 ↔ x = y) := by
  refine ⟨_, mse_eq x y h hx, ?_, ?_⟩
  · exact div_nonneg (dot_self_nonneg _) (length_pos_real hx).le
  · rw [div_eq_zero_iff, dot_self_eq_zero, zipWith_sub_zero x y h]
    simp [hx]

/-- **C116.** The signal to noise ratio of two tensors of the same size that are not equal is the mean square
of the float tensor over the mean squared error; for equal tensors it is not a number. -/
theorem C116_sqnr (x y : List ℝ) (h : x.length = y.length) (hx : x ≠ []) :
    (x = y → sqnr x y = none) ∧
    (x ≠ y → ∃ v n, sqnr x y = some v ∧ mse x y = some n ∧ 0 ≤ v ∧
      v * n = (x.map (fun a => a ^ 2)).sum / (x.length : ℝ)) := by
  obtain ⟨n, h1, h2, h3⟩ := C116_mse x y h hx
  have hs : meanSq x = some (dot x x / (x.length : ℝ)) := by unfold meanSq; rw [if_neg hx]
  constructor
  · intro e
    unfold sqnr
    rw [hs, Option.bind_some, h1, Option.bind_some, if_pos (h3.2 e)]
  · intro e
    have hn : n ≠ 0 := fun e' => e (h3.1 e')
    refine ⟨dot x x / (x.length : ℝ) / n, n, ?_, h1, ?_, ?_⟩
    · unfold sqnr
      rw [hs, Option.bind_some, h1, Option.bind_some, if_neg hn]
    · exact div_nonneg (div_nonneg (dot_self_nonneg _) (length_pos_real hx).le) h2
    · rw [div_mul_cancel₀ _ hn]
      congr 1
      clear hs h1 hx h e
      have : ∀ x : List ℝ, dot x x = (x.map (fun a => a ^ 2)).sum := by
        intro x
        induction x with
        | nil => simp [dot]
        | cons a x ih => rw [dot_cons, ih]; simp [sq]
      exact this x

theorem normAtLeast_pos (ε : ℝ) (hε : 0 < ε) (x : List ℝ) : 0 < normAtLeast ε x :=
  lt_of_lt_of_le hε (le_max_right _ _)

theorem abs_dot_le (ε : ℝ) (x y : List ℝ) (h : x.length = y.length) :
    |dot x y| ≤ normAtLeast ε x * normAtLeast ε y := by
  have h1 : |dot x y| ≤ Real.sqrt (dot x x) * Real.sqrt (dot y y) := by
    rw [← Real.sqrt_mul (dot_self_nonneg x), ← Real.sqrt_sq_eq_abs]
    exact Real.sqrt_le_sqrt (cauchy_schwarz x y h)
  exact h1.trans (mul_le_mul (le_max_left _ _) (le_max_left _ _) (Real.sqrt_nonneg _)
    ((Real.sqrt_nonneg _).trans (le_max_left _ _)))

theorem dot_scale (c : ℝ) (x : List ℝ) : dot x (x.map (c * ·)) = c * dot x x ∧
    dot (x.map (c * ·)) (x.map (c * ·)) = c ^ 2 * dot x x := by
  induction x with
  | nil => simp [dot]
  | cons a x ih =>
    simp only [List.map_cons, dot_cons, ih.1, ih.2]
    constructor <;> ring

/-- **C116.** The cosine similarity of the PyTorch report is between -1 and 1; it is 1 for a tensor and a
positive multiple of it, so for equal tensors, and -1 for a negative multiple, when the tensors are not
smaller than the `eps` of PyTorch. -/
theorem C116_cs_torch (x y : List ℝ) (h : x.length = y.length) :
    (∃ v, torchCs x y = some v ∧ -1 ≤ v ∧ v ≤ 1) ∧
    ∀ c : ℝ, y = x.map (c * ·) → 1 / 10 ^ 8 ≤ Real.sqrt (dot x x) → 1 / 10 ^ 8 ≤ Real.sqrt (dot y y) →
      (0 < c → torchCs x y = some 1) ∧ (c < 0 → torchCs x y = some (-1)) := by
  have hε : (0 : ℝ) < 1 / 10 ^ 8 := by norm_num
  have hpos : 0 < normAtLeast (1 / 10 ^ 8) x * normAtLeast (1 / 10 ^ 8) y :=
    mul_pos (normAtLeast_pos _ hε x) (normAtLeast_pos _ hε y)
  constructor
  · refine ⟨_, if_pos h, ?_, ?_⟩
    · rw [le_div_iff₀ hpos]
      have := neg_le_of_abs_le (abs_dot_le (1 / 10 ^ 8) x y h)
      linarith
    · rw [div_le_one hpos]
      exact (le_abs_self _).trans (abs_dot_le (1 / 10 ^ 8) x y h)
  · intro c hy hx1 hy1
    have e1 : normAtLeast (1 / 10 ^ 8) x = Real.sqrt (dot x x) := max_eq_left hx1
    have e2 : normAtLeast (1 / 10 ^ 8) y = Real.sqrt (dot y y) := max_eq_left hy1
    have hd1 : dot x y = c * dot x x := by rw [hy]; exact (dot_scale c x).1
    have hd2 : dot y y = c ^ 2 * dot x x := by rw [hy]; exact (dot_scale c x).2
    have e3 : Real.sqrt (dot x x) * Real.sqrt (dot y y) = |c| * dot x x := by
      rw [hd2, Real.sqrt_mul (sq_nonneg c), Real.sqrt_sq_eq_abs]
      have := Real.mul_self_sqrt (dot_self_nonneg x)
      calc Real.sqrt (dot x x) * (|c| * Real.sqrt (dot x x))
          = |c| * (Real.sqrt (dot x x) * Real.sqrt (dot x x)) := by ring
        _ = |c| * dot x x := by rw [this]
    have hxx : dot x x ≠ 0 := by
      intro e
      rw [e, Real.sqrt_zero] at hx1
      linarith
    have key : torchCs x y = some (c * dot x x / (|c| * dot x x)) := by
      unfold torchCs
      rw [if_pos h, e1, e2, e3, hd1]
    constructor
    · intro hc
      rw [key, abs_of_pos hc, div_self (mul_ne_zero hc.ne' hxx)]
    · intro hc
      rw [key, abs_of_neg hc, neg_mul, div_neg, div_self (mul_ne_zero hc.ne hxx)]

theorem dot_div (x y : List ℝ) (a b : ℝ) : dot (x.map (· / a)) (y.map (· / b)) = dot x y / (a * b) := by
  induction x generalizing y with
  | nil => simp [dot]
  | cons u x ih =>
    cases y with
    | nil => simp [dot]
    | cons v y =>
      simp only [List.map_cons, dot_cons, ih]
      rw [div_mul_div_comm, add_div]

/-- **C116.** The cosine similarity of the Keras report is the one of the PyTorch report with the opposite
sign. -/
theorem C116_keras_cs (x y : List ℝ) (h : x.length = y.length)
    (hx : 1 / 10 ^ 6 ≤ Real.sqrt (dot x x)) (hy : 1 / 10 ^ 6 ≤ Real.sqrt (dot y y)) :
    ∃ v, torchCs x y = some v ∧ kerasCs x y = some (-v) := by
  have hlt : (1 : ℝ) / 10 ^ 8 ≤ 1 / 10 ^ 6 := by norm_num
  refine ⟨_, if_pos h, ?_⟩
  unfold kerasCs
  rw [if_pos h, dot_div]
  unfold normAtLeast
  rw [max_eq_left hx, max_eq_left hy, max_eq_left (hlt.trans hx), max_eq_left (hlt.trans hy)]

/-- **C116, violated.** So the Keras report gives the cosine similarity -1, the value of opposite tensors, to
the equal outputs of a quantized layer without any error, and 1 to opposite outputs. -/
theorem C116_keras_cs_violated (x : List ℝ) (hx : 1 / 10 ^ 6 ≤ Real.sqrt (dot x x)) :
    kerasCs x x = some (-1) ∧ kerasCs x (x.map (-1 * ·)) = some 1 := by
  have hlt : (1 : ℝ) / 10 ^ 8 ≤ 1 / 10 ^ 6 := by norm_num
  constructor
  · obtain ⟨v, h1, h2⟩ := C116_keras_cs x x rfl hx hx
    have := ((C116_cs_torch x x rfl).2 1 (by simp) (hlt.trans hx) (hlt.trans hx)).1 one_pos
    rw [h1] at this
    cases this
    exact h2
  · have hl : x.length = (x.map (-1 * ·)).length := by simp
    have hd : dot (x.map (-1 * ·)) (x.map (-1 * ·)) = dot x x := by
      rw [(dot_scale (-1) x).2]; ring
    have hy : 1 / 10 ^ 6 ≤ Real.sqrt (dot (x.map (-1 * ·)) (x.map (-1 * ·))) := by rw [hd]; exact hx
    obtain ⟨v, h1, h2⟩ := C116_keras_cs x _ hl hx hy
    have := ((C116_cs_torch x _ hl).2 (-1) rfl (hlt.trans hx) (hlt.trans hy)).2 (by norm_num)
    rw [h1] at this
    cases this
    rw [h2]; norm_num

/-- The hypothesis holds of the tensor `[3, 4]`. -/
example : (1 : ℝ) / 10 ^ 6 ≤ Real.sqrt (dot [3, 4] [3, 4]) := by
  have : dot [3, 4] [3, 4] = 5 ^ 2 := by norm_num [dot]
  rw [this, Real.sqrt_sq (by norm_num)]
  norm_num

/-! ### The hooks -/

theorem addHooks_spec (hooks : String → Nat) (names : List String) (n : String) :
    addHooks hooks names n = hooks n + names.count n := by
  unfold addHooks
  induction names generalizing hooks with
  | nil => simp
  | cons a names ih =>
    rw [List.foldl_cons, ih, List.count_cons]
    by_cases h : n = a
    · subst h; simp; omega
    · have : (a == n) = false := by simpa using fun e => h e.symm
      simp [h, this]

/-- **C116.** The PyTorch report leaves on each compared layer of the model of the user one hook for every
input of the dataset. -/
theorem C116_hooks_left {X : Type} (hooks : String → Nat) (names : List String) (hn : names.Nodup)
    (dataset : List X) (n : String) :
    hooksAfter hooks names dataset n = hooks n + if n ∈ names then dataset.length else 0 := by
  unfold hooksAfter
  induction dataset generalizing hooks with
  | nil => simp
  | cons x dataset ih =>
    rw [List.foldl_cons, ih, addHooks_spec]
    by_cases h : n ∈ names
    · rw [List.count_eq_one_of_mem hn h, if_pos h, if_pos h, List.length_cons]; omega
    · rw [List.count_eq_zero_of_not_mem h, if_neg h, if_neg h]

/-- **C116, violated.** A report does not leave the quantized model as it was. -/
theorem C116_hooks_violated :
    ∃ (names : List String) (dataset : List Nat) (n : String), hooksAfter (fun _ => 0) names dataset n ≠ 0 :=
  ⟨["conv"], [0, 1], "conv", by decide⟩

end MCT.XQuant
