/-
C123: the loss of GPTQ weighs the errors of the layers.
-/
import Verif.Loss.Model
import Mathlib.Tactic.Linarith
import Mathlib.Tactic.Ring
import Mathlib.Tactic.FieldSimp
import Mathlib.Tactic.Positivity
import Mathlib.Tactic.NormNum
import Mathlib.Algebra.Order.Field.Basic
import Mathlib.Algebra.Order.Field.Rat
import Mathlib.Algebra.BigOperators.Ring.List
import Mathlib.Algebra.Order.BigOperators.Group.List
import Mathlib.Algebra.BigOperators.Group.List.Lemmas

namespace MCT.Loss

variable {R : Type} [Field R] [LinearOrder R] [IsStrictOrderedRing R]

/-! ### Specification -/

/-- The sum of the squared errors of two tensors. -/
def sse (y x : List R) : R := (List.zipWith (fun a b => (a - b) ^ 2) y x).sum

/-- The weighted sum of the errors of the layers. -/
def weighted (w losses : List R) : R := (List.zipWith (· * ·) w losses).sum

/-- The normalised error of a layer: the squared error relative to the squares of the float tensor. -/
def relError (y x : List R) : R := sse y x / (x.map fun a => a ^ 2).sum

/-! ### Errors of one layer -/

omit [LinearOrder R] [IsStrictOrderedRing R] in
theorem sqDiff_comm (y x : List R) : sqDiff y x = sqDiff x y := by
  unfold sqDiff
  rw [List.zipWith_comm]
  congr 1
  funext a b
  ring

omit [LinearOrder R] [IsStrictOrderedRing R] in
theorem sqDiff_length (y x : List R) (h : y.length = x.length) : (sqDiff y x).length = x.length := by
  unfold sqDiff; rw [List.length_zipWith, h, min_self]

theorem mseTorch_eq (y x : List R) (h : y.length = x.length) : mseTorch y x = relError y x := by
  unfold mseTorch mean relError sse
  rw [sqDiff_comm, sqDiff_length y x h, List.length_map]
  unfold sqDiff
  rcases Nat.eq_zero_or_pos x.length with hx | hx
  · have : x = [] := List.length_eq_zero_iff.mp hx
    subst this
    simp
  · have : (x.length : R) ≠ 0 := Nat.cast_ne_zero.mpr hx.ne'
    rw [div_div_div_cancel_right₀ this]

/-- **C123** (one layer).  The error of a layer in the PyTorch loss is its squared error relative to the float tensor;
in the Keras loss it is the mean squared error. -/
theorem C123_layer (y x : List R) (h : y.length = x.length) :
    mseTorch y x = relError y x ∧ mseTensorKeras false y x = sse y x / (x.length : R) ∧
      mseTensorKeras true y x = relError y x := by
  refine ⟨mseTorch_eq y x h, ?_, ?_⟩
  · unfold mseTensorKeras mean
    rw [if_neg (by simp), sqDiff_length y x h]
    rfl
  · rw [← mseTorch_eq y x h]
    unfold mseTensorKeras mseTorch
    rw [if_pos rfl, sqDiff_comm]

omit [LinearOrder R] [IsStrictOrderedRing R] in
/-- **C123** (violation).  `mse_loss` of Keras has the flag the wrong way round: asked for the normalized error it
returns the error, and the normalized error otherwise. -/
theorem C123_keras_flag_violated (y x : List R) :
    mseKeras true y x = mseTensorKeras false y x ∧ mseKeras false y x = mseTensorKeras true y x := by
  constructor <;> simp [mseKeras, mseTensorKeras]

example : mseKeras true [1, 2] [2, (2 : ℚ)] = 1 / 2 ∧ mseKeras false [1, 2] [2, (2 : ℚ)] = 1 / 8 := by decide +kernel

/-! ### The weighted loss -/

omit [LinearOrder R] [IsStrictOrderedRing R] in
theorem sum_flatten_replicate (b : ℕ) (l : List R) : (List.replicate b l).flatten.sum = (b : R) * l.sum := by
  induction b with
  | zero => simp
  | succ b ih => rw [List.replicate_succ, List.flatten_cons, List.sum_append, ih]; push_cast; ring

theorem length_flatten_replicate {α : Type} (b : ℕ) (l : List α) :
    (List.replicate b l).flatten.length = b * l.length := by
  induction b with
  | zero => simp
  | succ b ih => rw [List.replicate_succ, List.flatten_cons, List.length_append, ih]; ring

omit [LinearOrder R] [IsStrictOrderedRing R] in
theorem sum_flatMap_mul (l losses : List R) :
    (l.flatMap fun a => losses.map fun c => a * c).sum = l.sum * losses.sum := by
  induction l with
  | nil => simp
  | cons a l ih =>
      rw [List.flatMap_cons, List.sum_append, ih, List.sum_cons, List.sum_map_mul_left]
      simp only [List.map_id']
      ring

theorem length_flatMap_mul (l losses : List R) :
    (l.flatMap fun a => losses.map fun c => a * c).length = l.length * losses.length := by
  induction l with
  | nil => simp
  | cons a l ih => rw [List.flatMap_cons, List.length_append, ih, List.length_map, List.length_cons]; ring

/-- **C123** (PyTorch).  With one weight per layer the loss is the weighted sum of the relative errors of the layers
divided by their number, whatever the size of the batch; without weights it is their mean. -/
theorem C123_torch (b : ℕ) (hb : 0 < b) (w : List R) (ys xs : List (List R)) (hl : ys.length = xs.length)
    (hw : w.length = xs.length) (hs : ∀ p ∈ ys.zip xs, p.1.length = p.2.length) :
    multiTorch b (some (.flat w)) ys xs = some (weighted w (List.zipWith relError ys xs) / (xs.length : R)) ∧
    multiTorch b none ys xs = some ((List.zipWith relError ys xs).sum / (xs.length : R)) := by
  have e : List.zipWith mseTorch ys xs = List.zipWith relError ys xs := by
    rw [← List.map_uncurry_zip_eq_zipWith, ← List.map_uncurry_zip_eq_zipWith]
    exact List.map_congr_left fun p hp => mseTorch_eq p.1 p.2 (hs p hp)
  have hlen : (List.zipWith relError ys xs).length = xs.length := by rw [List.length_zipWith, hl, min_self]
  constructor
  · unfold multiTorch broadcast
    dsimp only
    rw [e, if_pos (hw.trans hlen.symm), Option.map_some]
    unfold mean
    rw [sum_flatten_replicate, length_flatten_replicate, List.length_zipWith, hlen, hw, min_self]
    unfold weighted
    have : (b : R) ≠ 0 := Nat.cast_ne_zero.mpr hb.ne'
    push_cast
    rw [mul_div_mul_left _ _ this]
  · unfold multiTorch mean
    dsimp only
    rw [e, hlen]

/-- **C123** (Keras without weights).  The normalized loss is the mean of the relative errors of the layers, as in
PyTorch. -/
theorem C123_keras_plain (b : ℕ) (hb : 0 < b) (ys xs : List (List R)) (hl : ys.length = xs.length)
    (hs : ∀ p ∈ ys.zip xs, p.1.length = p.2.length) :
    multiKeras b true none ys xs = some ((List.zipWith relError ys xs).sum / (xs.length : R)) ∧
    multiKeras b true none ys xs = multiTorch b none ys xs := by
  have e : List.zipWith (fun y x => mseTensorKeras true y x) ys xs = List.zipWith relError ys xs := by
    rw [← List.map_uncurry_zip_eq_zipWith, ← List.map_uncurry_zip_eq_zipWith]
    exact List.map_congr_left fun p hp => (C123_layer p.1 p.2 (hs p hp)).2.2
  have hlen : (List.zipWith relError ys xs).length = xs.length := by rw [List.length_zipWith, hl, min_self]
  have h1 : multiKeras b true none ys xs = some ((List.zipWith relError ys xs).sum / (xs.length : R)) := by
    unfold multiKeras mean
    dsimp only
    rw [e, hlen]
  refine ⟨h1, ?_⟩
  rw [h1, (C123_torch b hb (xs.map fun _ => 0) ys xs hl (by simp) hs).2]

example : multiKeras (R := ℚ) 2 true none [[1, 3]] [[1, 2]] = some (1 / 5) := by
  norm_num [multiKeras, mseTensorKeras, mean, sqDiff]

omit [LinearOrder R] [IsStrictOrderedRing R] in
/-- **C123** (violation).  In Keras the weighted loss is multiplied by the size of the batch. -/
theorem C123_keras_batch_violated (b : ℕ) (norm : Bool) (w : List R) (ys xs : List (List R))
    (hl : ys.length = xs.length) (hw : w.length = xs.length) :
    multiKeras b norm (some (.flat w)) ys xs =
      some ((b : R) * weighted w (List.zipWith (fun y x => mseTensorKeras norm y x) ys xs)) := by
  have hlen : (List.zipWith (fun y x => mseTensorKeras norm y x) ys xs).length = xs.length := by
    rw [List.length_zipWith, hl, min_self]
  unfold multiKeras broadcast
  dsimp only
  rw [if_pos (hw.trans hlen.symm), Option.map_some, sum_flatten_replicate]
  rfl

example : multiTorch 8 (some (.flat [1, 3])) [[1, 2], [5]] [[2, 2], [(4 : ℚ)]] = some (5 / 32) := by decide +kernel
example : multiKeras 8 false (some (.flat [1, 3])) [[1, 2], [5]] [[2, 2], [(4 : ℚ)]] = some 28 := by decide +kernel

/-- **C123** (violation).  Scores without logarithmic normalization have shape `[layers, 1]`: every weight is multiplied
with every loss, so the loss depends on the sum of the weights only. Any two sets of weights with one sum and number
give the same loss. -/
theorem C123_column_violated (b : ℕ) (hb : 0 < b) (norm : Bool) (w : List R) (ys xs : List (List R)) :
    multiTorch b (some (.column w)) ys xs =
      some (w.sum / (w.length : R) * ((List.zipWith mseTorch ys xs).sum / ((List.zipWith mseTorch ys xs).length : R))) ∧
    multiKeras b norm (some (.column w)) ys xs =
      some ((b : R) * (w.sum * (List.zipWith (fun y x => mseTensorKeras norm y x) ys xs).sum)) ∧
    ∀ w' : List R, w'.sum = w.sum → w'.length = w.length →
      multiTorch b (some (.column w')) ys xs = multiTorch b (some (.column w)) ys xs ∧
      multiKeras b norm (some (.column w')) ys xs = multiKeras b norm (some (.column w)) ys xs := by
  have hT : ∀ w : List R, multiTorch b (some (.column w)) ys xs =
      some (w.sum / (w.length : R) * ((List.zipWith mseTorch ys xs).sum / ((List.zipWith mseTorch ys xs).length : R))) := by
    intro w
    unfold multiTorch broadcast
    dsimp only
    rw [Option.map_some]
    unfold mean
    rw [sum_flatten_replicate, length_flatten_replicate, sum_flatMap_mul, length_flatMap_mul]
    have : (b : R) ≠ 0 := Nat.cast_ne_zero.mpr hb.ne'
    push_cast
    rw [mul_div_mul_left _ _ this, mul_div_mul_comm]
  have hK : ∀ w : List R, multiKeras b norm (some (.column w)) ys xs =
      some ((b : R) * (w.sum * (List.zipWith (fun y x => mseTensorKeras norm y x) ys xs).sum)) := by
    intro w
    unfold multiKeras broadcast
    dsimp only
    rw [Option.map_some, sum_flatten_replicate, sum_flatMap_mul]
  refine ⟨hT w, hK w, fun w' h1 h2 => ?_⟩
  rw [hT, hT, hK, hK, h1, h2]
  exact ⟨rfl, rfl⟩

/-! ### Zero -/

omit [Field R] [LinearOrder R] [IsStrictOrderedRing R] in
theorem zipWith_forall {A B C : Type} (f : A → B → C) (P : C → Prop) (as : List A) (bs : List B) :
    (∀ c ∈ List.zipWith f as bs, P c) ↔ ∀ p ∈ as.zip bs, P (f p.1 p.2) := by
  rw [← List.map_uncurry_zip_eq_zipWith, List.forall_mem_map]
  rfl

theorem sse_nonneg (y x : List R) : 0 ≤ sse y x := by
  unfold sse
  apply List.sum_nonneg
  rw [zipWith_forall]
  intro p _
  positivity

theorem sum_eq_zero_iff (l : List R) (h : ∀ a ∈ l, 0 ≤ a) : l.sum = 0 ↔ ∀ a ∈ l, a = 0 := by
  induction l with
  | nil => simp
  | cons a l ih =>
      have h1 := h a List.mem_cons_self
      have h2 := List.sum_nonneg fun b hb => h b (List.mem_cons_of_mem _ hb)
      rw [List.sum_cons, List.forall_mem_cons, ← ih fun b hb => h b (List.mem_cons_of_mem _ hb)]
      constructor
      · intro e; constructor <;> linarith
      · rintro ⟨rfl, e⟩; rw [e, add_zero]

theorem eq_of_zip {A : Type} : ∀ (y x : List A), y.length = x.length → (∀ p ∈ y.zip x, p.1 = p.2) → y = x
  | [], [], _, _ => rfl
  | [], _ :: _, h, _ => by simp at h
  | _ :: _, [], h, _ => by simp at h
  | a :: y, b :: x, h, hp => by
      rw [List.zip_cons_cons, List.forall_mem_cons] at hp
      rw [eq_of_zip y x (by simpa using h) hp.2, show a = b from hp.1]

theorem zip_self_mem {A : Type} : ∀ (x : List A), ∀ p ∈ x.zip x, p.1 = p.2
  | [], p, hp => by simp at hp
  | a :: x, p, hp => by
      rcases List.mem_cons.mp (List.zip_cons_cons ▸ hp) with rfl | hp
      · rfl
      · exact zip_self_mem x p hp

theorem sse_zero (y x : List R) (h : y.length = x.length) : sse y x = 0 ↔ y = x := by
  unfold sse
  rw [sum_eq_zero_iff _ (by rw [zipWith_forall]; intro p _; positivity), zipWith_forall]
  constructor
  · intro hp
    refine eq_of_zip y x h fun p hpp => ?_
    have := pow_eq_zero_iff (two_ne_zero) |>.mp (hp p hpp)
    linarith
  · rintro rfl p hp
    rw [zip_self_mem y p hp, sub_self]
    exact zero_pow two_ne_zero

/-- **C123** (zero).  With positive weights, and float tensors that are not zero, the PyTorch loss is never negative,
and it is zero exactly if all tensors of the quantized model are those of the float model. -/
theorem C123_zero (b : ℕ) (hb : 0 < b) (w : List R) (ys xs : List (List R)) (hl : ys.length = xs.length)
    (hw : w.length = xs.length) (hs : ∀ p ∈ ys.zip xs, p.1.length = p.2.length) (hpos : ∀ a ∈ w, 0 < a)
    (hx : ∀ x ∈ xs, ∃ a ∈ x, a ≠ 0) :
    ∃ v, multiTorch b (some (.flat w)) ys xs = some v ∧ 0 ≤ v ∧ (v = 0 ↔ ys = xs) := by
  refine ⟨_, (C123_torch b hb w ys xs hl hw hs).1, ?_⟩
  have hxp : ∀ x ∈ xs, 0 < (x.map fun a => a ^ 2).sum := by
    intro x hxm
    have h0 : ∀ c ∈ x.map (fun a => a ^ 2), 0 ≤ c := by
      intro c hc
      obtain ⟨a, _, rfl⟩ := List.mem_map.mp hc
      positivity
    refine lt_of_le_of_ne (List.sum_nonneg h0) fun e => ?_
    obtain ⟨a, ha, hne⟩ := hx x hxm
    have := (sum_eq_zero_iff _ h0).mp e.symm (a ^ 2) (List.mem_map_of_mem ha)
    exact hne (pow_eq_zero_iff two_ne_zero |>.mp this)
  have hrel : ∀ c ∈ List.zipWith relError ys xs, 0 ≤ c := by
    rw [zipWith_forall]
    intro p hp
    exact div_nonneg (sse_nonneg _ _) (hxp p.2 (List.of_mem_zip hp).2).le
  have hterm : ∀ c ∈ List.zipWith (· * ·) w (List.zipWith relError ys xs), 0 ≤ c := by
    rw [zipWith_forall]
    intro p hp
    exact mul_nonneg (hpos _ (List.of_mem_zip hp).1).le (hrel _ (List.of_mem_zip hp).2)
  have hlen : (List.zipWith relError ys xs).length = xs.length := by rw [List.length_zipWith, hl, min_self]
  constructor
  · exact div_nonneg (List.sum_nonneg hterm) (Nat.cast_nonneg _)
  · constructor
    · intro hv
      have hsum : weighted w (List.zipWith relError ys xs) = 0 := by
        rcases div_eq_zero_iff.mp hv with h | h
        · exact h
        · have h0 : xs.length = 0 := by exact_mod_cast h
          have hw0 : w = [] := List.length_eq_zero_iff.mp (hw.trans h0)
          subst hw0
          rfl
      unfold weighted at hsum
      rw [sum_eq_zero_iff _ hterm, zipWith_forall] at hsum
      have hz : ∀ c ∈ List.zipWith relError ys xs, c = 0 := by
        intro c hc
        obtain ⟨i, hi, rfl⟩ := List.mem_iff_getElem.mp hc
        have hi' : i < w.length := by omega
        have hm : (w[i], (List.zipWith relError ys xs)[i]) ∈ w.zip (List.zipWith relError ys xs) :=
          List.mem_iff_getElem.mpr ⟨i, by rw [List.length_zip]; omega, List.getElem_zip⟩
        have := hsum _ hm
        rcases mul_eq_zero.mp this with h | h
        · exact absurd h (hpos _ (List.getElem_mem hi')).ne'
        · exact h
      rw [zipWith_forall] at hz
      refine eq_of_zip ys xs hl fun p hp => ?_
      have h1 := hz p hp
      unfold relError at h1
      rcases div_eq_zero_iff.mp h1 with h | h
      · exact (sse_zero p.1 p.2 (hs p hp)).mp h
      · exact absurd h (hxp p.2 (List.of_mem_zip hp).2).ne'
    · rintro rfl
      rw [div_eq_zero_iff]
      left
      unfold weighted
      rw [sum_eq_zero_iff _ hterm, zipWith_forall]
      intro p hp
      have : p.2 = 0 := by
        have h2 := (List.of_mem_zip hp).2
        revert h2
        generalize p.2 = c
        revert c
        rw [zipWith_forall]
        intro q hq
        unfold relError
        rw [(sse_zero q.1 q.2 (hs q hq)).mpr (zip_self_mem ys q hq), zero_div]
      rw [this, mul_zero]

/-! ### Sample layer attention -/

/-- The squares of the differences along the first axis after the batch are added and the others averaged: the norm is
the squared error of the sample divided by the number of the other elements. -/
theorem slaNorm_eq (m : ℕ) (y x : List (List R)) (hl : y.length = x.length) (hx : x ≠ [])
    (hy : ∀ r ∈ y, r.length = m) (hxr : ∀ r ∈ x, r.length = m) :
    slaNorm y x = (List.zipWith sse y x).sum / (m : R) := by
  have key : ∀ (y x : List (List R)), y.length = x.length → (∀ r ∈ y, r.length = m) → (∀ r ∈ x, r.length = m) →
      ((List.zipWith sqDiff y x).foldr (List.zipWith (· + ·)) (List.replicate m 0)).length = m ∧
      ((List.zipWith sqDiff y x).foldr (List.zipWith (· + ·)) (List.replicate m 0)).sum =
        (List.zipWith sse y x).sum := by
    intro y
    induction y with
    | nil => intro x _ _ _; simp
    | cons a y ih =>
        intro x hl hy hx
        cases x with
        | nil => simp at hl
        | cons b x =>
            obtain ⟨h1, h2⟩ := ih x (by simpa using hl) (fun r hr => hy r (List.mem_cons_of_mem _ hr))
              (fun r hr => hx r (List.mem_cons_of_mem _ hr))
            have hd : (sqDiff a b).length = m := by
              rw [sqDiff_length _ _ ((hy a List.mem_cons_self).trans (hx b List.mem_cons_self).symm)]
              exact hx b List.mem_cons_self
            rw [List.zipWith_cons_cons, List.foldr_cons, List.zipWith_cons_cons, List.sum_cons, ← h2]
            refine ⟨by rw [List.length_zipWith, hd, h1, min_self], ?_⟩
            have hadd : ∀ (p q : List R), p.length = q.length → (List.zipWith (· + ·) p q).sum = p.sum + q.sum := by
              intro p
              induction p with
              | nil => intro q hq; rw [List.length_eq_zero_iff.mp hq.symm]; simp
              | cons u p ihp =>
                  intro q hq
                  cases q with
                  | nil => simp at hq
                  | cons v q =>
                      rw [List.zipWith_cons_cons, List.sum_cons, ihp q (by simpa using hq)]
                      simp only [List.sum_cons]
                      ring
            rw [hadd _ _ (hd.trans h1.symm)]
            rfl
  unfold slaNorm mean
  have hh : (x.headD []).length = m := by
    cases x with
    | nil => exact absurd rfl hx
    | cons b x => exact hxr b List.mem_cons_self
  rw [hh, (key y x hl hy hxr).1, (key y x hl hy hxr).2]

/-- **C123** (violation).  The first axis after the batch holds the channels in PyTorch and the rows of the image in
Keras: for the same error the norm of a sample is `e / (H W)` in PyTorch and `e / (W C)` in Keras. -/
theorem C123_attention_axis_violated (H W C : ℕ) (e : R) (yT xT yK xK : List (List R))
    (hT : yT.length = xT.length ∧ xT.length = C ∧ (∀ r ∈ yT, r.length = H * W) ∧ ∀ r ∈ xT, r.length = H * W)
    (hK : yK.length = xK.length ∧ xK.length = H ∧ (∀ r ∈ yK, r.length = W * C) ∧ ∀ r ∈ xK, r.length = W * C)
    (hH : 0 < H) (hC : 0 < C)
    (eT : (List.zipWith sse yT xT).sum = e) (eK : (List.zipWith sse yK xK).sum = e) :
    slaNorm yT xT = e / ((H * W : ℕ) : R) ∧ slaNorm yK xK = e / ((W * C : ℕ) : R) := by
  constructor
  · rw [slaNorm_eq (H * W) yT xT hT.1 (by rintro rfl; simp at hT; omega) hT.2.2.1 hT.2.2.2, eT]
  · rw [slaNorm_eq (W * C) yK xK hK.1 (by rintro rfl; simp at hK; omega) hK.2.2.1 hK.2.2.2, eK]

example : slaNorm [[1, 0, 0, 0]] [[0, 0, 0, (0 : ℚ)]] = 1 / 4 ∧ slaNorm [[1, 0], [0, 0]] [[0, 0], [0, (0 : ℚ)]] = 1 / 2 := by
  decide +kernel

omit [LinearOrder R] [IsStrictOrderedRing R] in
theorem mean_scale (c : R) (l : List R) : mean (l.map fun a => c * a) = c * mean l := by
  unfold mean
  rw [List.length_map, List.sum_map_mul_left]
  simp only [List.map_id']
  ring

theorem foldl_max_scale (c : R) (hc : 0 < c) (l : List R) : ∀ m, (l.map fun a => c * a).foldl max (c * m) =
    c * l.foldl max m := by
  induction l with
  | nil => intro m; rfl
  | cons a l ih =>
      intro m
      rw [List.map_cons, List.foldl_cons, List.foldl_cons, ← ih, mul_max_of_nonneg _ _ hc.le]

/-- **C123** (attention, scale).  The loss does not change if all scores are multiplied by one positive factor. -/
theorem C123_attention_scale (c : R) (hc : 0 < c) (w norms : List (List R)) :
    slaLoss (w.map fun r => r.map fun a => c * a) norms = slaLoss w norms := by
  have hcol : ∀ i : ℕ, (w.map fun r => r.map fun a => c * a).map (fun r => r.getD i 0) =
      (w.map fun r => r.getD i 0).map fun a => c * a := by
    intro i
    rw [List.map_map, List.map_map]
    apply List.map_congr_left
    intro r _
    simp only [Function.comp, List.getD_eq_getElem?_getD, List.getElem?_map]
    cases r[i]? <;> simp
  unfold slaLoss
  dsimp only
  simp only [hcol]
  have h1 : (norms.zipIdx.map fun p => mean ((w.map fun r => r.getD p.2 0).map fun a => c * a)) =
      (norms.zipIdx.map fun p => mean (w.map fun r => r.getD p.2 0)).map fun a => c * a := by
    rw [List.map_map]
    exact List.map_congr_left fun p _ => mean_scale c _
  have h2 : (norms.zipIdx.map fun p => mean (List.zipWith (· * ·) ((w.map fun r => r.getD p.2 0).map fun a => c * a) p.1)) =
      (norms.zipIdx.map fun p => mean (List.zipWith (· * ·) (w.map fun r => r.getD p.2 0) p.1)).map fun a => c * a := by
    rw [List.map_map]
    apply List.map_congr_left
    intro p _
    simp only [Function.comp]
    rw [← mean_scale, List.zipWith_map_left, List.map_zipWith]
    congr 2
    funext a b
    ring
  rw [h1, h2]
  cases hm : norms.zipIdx.map fun p => mean (w.map fun r => r.getD p.2 0) with
  | nil => rfl
  | cons m ms =>
      rw [List.map_cons]
      dsimp only
      rw [foldl_max_scale c hc, List.sum_map_mul_left]
      simp only [List.map_id', mul_eq_zero, hc.ne', false_or]
      rw [mul_div_mul_left _ _ hc.ne']

theorem foldl_max_ge (l : List R) : ∀ m, m ≤ l.foldl max m ∧ (∀ a ∈ l, a ≤ l.foldl max m) ∧
    (l.foldl max m = m ∨ l.foldl max m ∈ l) := by
  induction l with
  | nil => intro m; simp
  | cons a l ih =>
      intro m
      rw [List.foldl_cons]
      obtain ⟨h1, h2, h3⟩ := ih (max m a)
      refine ⟨(le_max_left _ _).trans h1, ?_, ?_⟩
      · intro x hx
        rcases List.mem_cons.mp hx with rfl | hx
        · exact (le_max_right _ _).trans h1
        · exact h2 x hx
      · rcases h3 with h | h
        · rcases max_choice m a with h' | h'
          · left; rw [h, h']
          · right; rw [h, h']; exact List.mem_cons_self
        · right; exact List.mem_cons_of_mem _ h

theorem mean_nonneg (l : List R) (h : ∀ a ∈ l, 0 ≤ a) : 0 ≤ mean l :=
  div_nonneg (List.sum_nonneg h) (Nat.cast_nonneg _)

theorem mean_zero (l : List R) (h : ∀ a ∈ l, 0 ≤ a) : mean l = 0 ↔ ∀ a ∈ l, a = 0 := by
  rw [← sum_eq_zero_iff l h]
  unfold mean
  rw [div_eq_zero_iff]
  constructor
  · rintro (h | h)
    · exact h
    · have h0 : l.length = 0 := by exact_mod_cast h
      rw [List.length_eq_zero_iff.mp h0]; rfl
  · exact Or.inl

/-- **C123** (attention, zero).  For positive scores of all samples and layers the loss is defined and not negative,
and it is zero exactly if the norms of all samples are zero in all layers. -/
theorem C123_attention_zero (w norms : List (List R)) (hw : w ≠ []) (hn : norms ≠ [])
    (hr : ∀ r ∈ w, r.length = norms.length ∧ ∀ a ∈ r, 0 < a)
    (hb : ∀ l ∈ norms, l.length = w.length ∧ ∀ a ∈ l, 0 ≤ a) :
    ∃ v, slaLoss w norms = some v ∧ 0 ≤ v ∧ (v = 0 ↔ ∀ l ∈ norms, ∀ a ∈ l, a = 0) := by
  have hcol : ∀ i < norms.length, ∀ a ∈ w.map (fun r => r.getD i 0), 0 < a := by
    intro i hi a ha
    obtain ⟨r, hrm, rfl⟩ := List.mem_map.mp ha
    have : i < r.length := by rw [(hr r hrm).1]; exact hi
    rw [List.getD_eq_getElem?_getD, List.getElem?_eq_getElem this, Option.getD_some]
    exact (hr r hrm).2 _ (List.getElem_mem this)
  have hidx : ∀ p ∈ norms.zipIdx, p.2 < norms.length ∧ p.1 ∈ norms := by
    intro p hp
    have h1 := List.mem_zipIdx hp
    refine ⟨by omega, ?_⟩
    rw [h1.2.2]
    exact List.getElem_mem _
  have hterm : ∀ p ∈ norms.zipIdx, ∀ c ∈ List.zipWith (· * ·) (w.map fun r => r.getD p.2 0) p.1, 0 ≤ c := by
    intro p hp
    rw [zipWith_forall]
    intro q hq
    exact mul_nonneg (hcol p.2 (hidx p hp).1 _ (List.of_mem_zip hq).1).le
      ((hb p.1 (hidx p hp).2).2 _ (List.of_mem_zip hq).2)
  have hnum : ∀ c ∈ norms.zipIdx.map fun p => mean (List.zipWith (· * ·) (w.map fun r => r.getD p.2 0) p.1), 0 ≤ c := by
    rw [List.forall_mem_map]
    intro p hp
    exact mean_nonneg _ (hterm p hp)
  have hcm : ∀ c ∈ norms.zipIdx.map fun p => mean (w.map fun r => r.getD p.2 0), 0 < c := by
    rw [List.forall_mem_map]
    intro p hp
    have h0 := hcol p.2 (hidx p hp).1
    refine lt_of_le_of_ne (mean_nonneg _ fun a ha => (h0 a ha).le) fun e => ?_
    have h1 := (mean_zero _ fun a ha => (h0 a ha).le).mp e.symm
    cases w with
    | nil => exact hw rfl
    | cons r w =>
        have hm : r.getD p.2 0 ∈ (r :: w).map fun r => r.getD p.2 0 := List.mem_map_of_mem List.mem_cons_self
        exact (h0 _ hm).ne' (h1 _ hm)
  have hzero : (norms.zipIdx.map fun p => mean (List.zipWith (· * ·) (w.map fun r => r.getD p.2 0) p.1)).sum = 0 ↔
      ∀ l ∈ norms, ∀ a ∈ l, a = 0 := by
    rw [sum_eq_zero_iff _ hnum, List.forall_mem_map]
    constructor
    · intro h l hl a ha
      obtain ⟨i, hi, rfl⟩ := List.mem_iff_getElem.mp hl
      have hp : (norms[i], i) ∈ norms.zipIdx := by
        rw [List.mem_iff_getElem]
        exact ⟨i, by simpa using hi, by simp⟩
      have h1 := (mean_zero _ (hterm _ hp)).mp (h _ hp)
      rw [zipWith_forall] at h1
      obtain ⟨j, hj, rfl⟩ := List.mem_iff_getElem.mp ha
      have hjw : j < (w.map fun r => r.getD i 0).length := by
        rw [List.length_map, ← (hb _ hl).1]; exact hj
      have hm : ((w.map fun r => r.getD i 0)[j], norms[i][j]) ∈ (w.map fun r => r.getD i 0).zip norms[i] :=
        List.mem_iff_getElem.mpr ⟨j, by rw [List.length_zip]; omega, List.getElem_zip⟩
      rcases mul_eq_zero.mp (h1 _ hm) with h2 | h2
      · exact absurd h2 (hcol i hi _ (List.getElem_mem hjw)).ne'
      · exact h2
    · intro h p hp
      rw [mean_zero _ (hterm p hp), zipWith_forall]
      intro q hq
      rw [h p.1 (hidx p hp).2 q.2 (List.of_mem_zip hq).2, mul_zero]
  unfold slaLoss
  dsimp only
  cases hm : norms.zipIdx.map fun p => mean (w.map fun r => r.getD p.2 0) with
  | nil =>
      rw [List.map_eq_nil_iff] at hm
      cases norms with
      | nil => exact absurd rfl hn
      | cons a l => simp at hm
  | cons m ms =>
      rw [hm] at hcm
      have hpos : 0 < ms.foldl max m := lt_of_lt_of_le (hcm m List.mem_cons_self) (foldl_max_ge ms m).1
      dsimp only
      rw [if_neg hpos.ne']
      refine ⟨_, rfl, div_nonneg (List.sum_nonneg hnum) hpos.le, ?_⟩
      rw [div_eq_zero_iff, or_iff_left hpos.ne', hzero]

example : slaLoss [[1, 2], [3, 2]] [[4, 0], [2, (6 : ℚ)]] = some 5 := by decide +kernel

/-- **C123** (violation).  If all scores of a batch are zero (the outputs do not depend on the layers) there is no loss. -/
theorem C123_attention_no_scores_violated (w norms : List (List R)) (h : ∀ r ∈ w, ∀ a ∈ r, a = 0) :
    slaLoss w norms = none := by
  have hz : ∀ i : ℕ, mean (w.map fun r => r.getD i 0) = 0 := by
    intro i
    have h0 : ∀ a ∈ w.map fun r => r.getD i 0, a = 0 := by
      rw [List.forall_mem_map]
      intro r hr
      rw [List.getD_eq_getElem?_getD]
      cases hi : r[i]? with
      | none => rfl
      | some a => exact h r hr a (List.mem_of_getElem? hi)
    rw [mean_zero _ fun a ha => (h0 a ha).ge]
    exact h0
  unfold slaLoss
  dsimp only
  simp only [hz]
  cases hm : norms.zipIdx.map fun _ => (0 : R) with
  | nil => rfl
  | cons m ms =>
      dsimp only
      have hall : ∀ c ∈ m :: ms, c = 0 := by
        rw [← hm, List.forall_mem_map]; intro _ _; rfl
      rw [if_pos]
      rcases (foldl_max_ge ms m).2.2 with e | e
      · rw [e]; exact hall m List.mem_cons_self
      · exact hall _ (List.mem_cons_of_mem _ e)

end MCT.Loss
