/- The weights of the layers in the GPTQ loss. -/
import Verif.Train.Lemmas
import Mathlib.Analysis.SpecialFunctions.Log.Base
import Mathlib.Data.List.Sort

namespace MCT.Train

set_option linter.unusedSectionVars false
set_option linter.unusedVariables false

/-! ### Model -/

/-- `normalize_scores`, core/common/hessian/hessian_info_utils.py 20-34: the scores of one image divided by
their sum plus `EPS` (one score per layer). -/
noncomputable def normRow (eps : ℝ) (row : List ℝ) : List ℝ := row.map (· / (row.sum + eps))

/-- `np.mean(..., axis=0)`, gptq_training.py 209: the mean over the images, for `m` layers. -/
noncomputable def meanRows (m : ℕ) (rows : List (List ℝ)) : List ℝ :=
  (List.range m).map (fun j => (rows.map (fun r => r.getD j 0)).sum / rows.length)

/-- `np.partition(scores, 1)[1]`, gptq_training.py 219: the second smallest score; with fewer than two scores
numpy raises. -/
noncomputable def secondSmallest (xs : List ℝ) : Option ℝ := (xs.insertionSort (· ≤ ·))[1]?

/-- `np.where(scores != 0, scores, ...)`, gptq_training.py 218-219. -/
noncomputable def fillZeros (xs : List ℝ) : Option (List ℝ) :=
  (secondSmallest xs).map (fun z => xs.map (fun x => if x ≠ 0 then x else z))

/-- `np.log10` on all scores, gptq_training.py 222; `none` for a score that is not positive (numpy gives
`-inf` or `nan` there, and the following subtractions give `nan`). -/
noncomputable def log10s (xs : List ℝ) : Option (List ℝ) :=
  if xs.all (fun x => decide (0 < x)) then some (xs.map (Real.logb 10)) else none

/-- `np.min`, `np.max` of a list of at least one element. -/
noncomputable def minOf (xs : List ℝ) : ℝ := xs.foldr min (xs.headD 0)
/-- See `minOf`. -/
noncomputable def maxOf (xs : List ℝ) : ℝ := xs.foldr max (xs.headD 0)

/-- The end of `compute_hessian_based_weights` with `log_norm`, gptq/common/gptq_training.py 215-229; `none`
when the computation raises or its result is not finite. -/
noncomputable def logWeights (scale : Bool) (xs : List ℝ) : Option (List ℝ) :=
  match fillZeros xs with
  | none => none
  | some ys =>
    match log10s ys with
    | none => none
    | some ls =>
      if scale then
        if maxOf ls - minOf ls = 0 then none
        else some (ls.map (fun l => (l - minOf ls) / (maxOf ls - minOf ls)))
      else some (ls.map (fun l => l - minOf ls))

/-- `compute_hessian_based_weights`, gptq/common/gptq_training.py 188-229, on the scores fetched for the
images (one row per image, one column per layer). -/
noncomputable def hessianWeights (norm log scale : Bool) (eps : ℝ) (m : ℕ) (rows : List (List ℝ)) :
    Option (List ℝ) :=
  let rows' := if norm then rows.map (normRow eps) else rows
  let mean := meanRows m rows'
  if log then logWeights scale mean else some mean

/-! ### Lemmas -/

theorem minOf_le {xs : List ℝ} {x : ℝ} (h : x ∈ xs) : minOf xs ≤ x := by
  unfold minOf
  generalize xs.headD 0 = d
  induction xs with
  | nil => simp at h
  | cons a l ih =>
    simp only [List.foldr_cons]
    rcases List.mem_cons.mp h with e | h
    · rw [e]; exact min_le_left _ _
    · exact (min_le_right _ _).trans (ih h)

theorem le_maxOf {xs : List ℝ} {x : ℝ} (h : x ∈ xs) : x ≤ maxOf xs := by
  unfold maxOf
  generalize xs.headD 0 = d
  induction xs with
  | nil => simp at h
  | cons a l ih =>
    simp only [List.foldr_cons]
    rcases List.mem_cons.mp h with e | h
    · rw [e]; exact le_max_left _ _
    · exact (ih h).trans (le_max_right _ _)

theorem foldr_min_mem (d : ℝ) (xs : List ℝ) : xs.foldr min d ∈ d :: xs := by
  induction xs with
  | nil => simp
  | cons a l ih =>
    simp only [List.foldr_cons]
    rcases min_choice a (l.foldr min d) with e | e
    · rw [e]; simp
    · rw [e]; rcases List.mem_cons.mp ih with h | h
      · rw [h]; simp
      · simp [h]

theorem foldr_max_mem (d : ℝ) (xs : List ℝ) : xs.foldr max d ∈ d :: xs := by
  induction xs with
  | nil => simp
  | cons a l ih =>
    simp only [List.foldr_cons]
    rcases max_choice a (l.foldr max d) with e | e
    · rw [e]; simp
    · rw [e]; rcases List.mem_cons.mp ih with h | h
      · rw [h]; simp
      · simp [h]

theorem minOf_mem {xs : List ℝ} (h : xs ≠ []) : minOf xs ∈ xs := by
  cases xs with
  | nil => exact absurd rfl h
  | cons a l =>
    have := foldr_min_mem a (a :: l)
    rcases List.mem_cons.mp this with e | e
    · unfold minOf; simp only [List.headD_cons]; rw [e]; simp
    · exact e

theorem maxOf_mem {xs : List ℝ} (h : xs ≠ []) : maxOf xs ∈ xs := by
  cases xs with
  | nil => exact absurd rfl h
  | cons a l =>
    have := foldr_max_mem a (a :: l)
    rcases List.mem_cons.mp this with e | e
    · unfold maxOf; simp only [List.headD_cons]; rw [e]; simp
    · exact e

theorem secondSmallest_none (xs : List ℝ) : secondSmallest xs = none ↔ xs.length < 2 := by
  unfold secondSmallest
  rw [List.getElem?_eq_none_iff, List.length_insertionSort]; omega

theorem secondSmallest_mem {xs : List ℝ} {z : ℝ} (h : secondSmallest xs = some z) : z ∈ xs := by
  have := List.mem_of_getElem? h
  exact (List.perm_insertionSort (· ≤ ·) xs).mem_iff.mp this

/-- The second smallest of non-negative scores is zero exactly when two of them are. -/
theorem secondSmallest_pos {xs : List ℝ} {z : ℝ} (h0 : ∀ x ∈ xs, 0 ≤ x) (h : secondSmallest xs = some z) :
    (0 < z ↔ xs.count 0 ≤ 1) ∧ ∀ x ∈ xs, x ≠ 0 → xs.count 0 = 1 → z ≤ x := by
  unfold secondSmallest at h
  have hp := List.perm_insertionSort (· ≤ ·) xs
  have hs := List.pairwise_insertionSort (· ≤ ·) xs
  set s := xs.insertionSort (· ≤ ·) with hsd
  rw [← hp.count_eq]
  have h0' : ∀ x ∈ s, 0 ≤ x := fun x hx => h0 x (hp.mem_iff.mp hx)
  have hmem : ∀ x, x ∈ xs → x ∈ s := fun x hx => hp.mem_iff.mpr hx
  match hsm : s with
  | [] => simp at h
  | [a] => simp at h
  | a :: b :: l =>
    simp only [List.getElem?_cons_succ, List.getElem?_cons_zero, Option.some.injEq] at h
    subst h
    rw [List.pairwise_cons, List.pairwise_cons] at hs
    obtain ⟨ha, hb, _⟩ := hs
    constructor
    · constructor
      · intro hz
        have hl : (b :: l).count 0 = 0 := by
          rw [List.count_eq_zero]
          intro hm
          rcases List.mem_cons.mp hm with e | e
          · linarith
          · have := hb 0 e; linarith
        rw [List.count_cons, hl]; split_ifs <;> omega
      · intro hc
        have hb0 := h0' b (by simp)
        rcases lt_or_eq_of_le hb0 with h | h
        · exact h
        · have hab := ha b (by simp)
          have ha0 := h0' a (by simp)
          have : a = 0 := by linarith
          rw [this, ← h] at hc
          simp at hc
    · intro x hx hx0 hc
      rcases List.mem_cons.mp (hmem x hx) with e | e
      · -- `a` is not zero, so nothing is
        exfalso
        have ha0 := h0' a (by simp)
        have hap : 0 < a := lt_of_le_of_ne ha0 (by rw [← e]; exact fun h => hx0 h.symm)
        have : (a :: b :: l).count 0 = 0 := by
          rw [List.count_eq_zero]
          intro hm
          rcases List.mem_cons.mp hm with e' | e'
          · linarith
          · have := ha 0 e'; linarith
        omega
      · rcases List.mem_cons.mp e with e' | e'
        · rw [e']
        · exact hb x e'

/-- What the zero scores are replaced with. -/
theorem fillZeros_mono {xs : List ℝ} {z : ℝ} (h0 : ∀ x ∈ xs, 0 ≤ x) (h : secondSmallest xs = some z)
    (hc : xs.count 0 ≤ 1) {x y : ℝ} (hx : x ∈ xs) (hy : y ∈ xs) (hxy : x ≤ y) :
    (if x ≠ 0 then x else z) ≤ (if y ≠ 0 then y else z) := by
  have hz := secondSmallest_pos h0 h
  by_cases e1 : x = 0 <;> by_cases e2 : y = 0 <;> simp only [e1, e2, ne_eq, not_true, not_false_iff, if_true, if_false]
  · exact le_refl _
  · refine hz.2 y hy e2 ?_
    have : 0 < xs.count 0 := List.count_pos_iff.mpr (e1 ▸ hx)
    omega
  · exact absurd (le_antisymm (by rw [e2] at hxy; exact hxy) (h0 x hx)) e1
  · exact hxy

/-! ### C90 -/

/-- **C90**, log-normalised: with at least two layers, no negative score and at most one score of zero (and,
for the scaled form, two scores that differ after the zero is replaced), every layer gets a finite weight that
is not negative, some layer gets zero, a layer with a larger score never gets a smaller weight, and the scaled
weights reach one and do not exceed it.  What happens otherwise is `C90_two_zero_scores_fails`,
`C90_one_layer_fails` and `C90_equal_scores_fails`. -/
theorem C90_log_weights_partial (scale : Bool) (xs : List ℝ) (h0 : ∀ x ∈ xs, 0 ≤ x) (hl : 2 ≤ xs.length)
    (hc : xs.count 0 ≤ 1)
    (hd : scale = true → ∃ x ∈ xs, ∃ y ∈ xs, 0 < x ∧ x < y) :
    ∃ w : ℝ → ℝ, logWeights scale xs = some (xs.map w) ∧
      (∀ x ∈ xs, 0 ≤ w x) ∧ (∃ x ∈ xs, w x = 0) ∧
      (∀ x ∈ xs, ∀ y ∈ xs, x ≤ y → w x ≤ w y) ∧
      (scale = true → (∀ x ∈ xs, w x ≤ 1) ∧ ∃ x ∈ xs, w x = 1) ∧
      (scale = false → ∀ x ∈ xs, ∀ y ∈ xs, 0 < x → 0 < y → w y - w x = Real.logb 10 (y / x)) := by
  cases hz : secondSmallest xs with
  | none => rw [secondSmallest_none] at hz; omega
  | some z =>
    have hzp : 0 < z := (secondSmallest_pos h0 hz).1.mpr hc
    set f : ℝ → ℝ := fun x => if x ≠ 0 then x else z with hf
    have hfp : ∀ x ∈ xs, 0 < f x := by
      intro x hx
      rw [hf]; simp only
      split_ifs with e
      · exact lt_of_le_of_ne (h0 x hx) (Ne.symm e)
      · exact hzp
    have hfm : ∀ x ∈ xs, ∀ y ∈ xs, x ≤ y → f x ≤ f y := fun x hx y hy h => fillZeros_mono h0 hz hc hx hy h
    have hfill : fillZeros xs = some (xs.map f) := by unfold fillZeros; rw [hz]; rfl
    have hlog : log10s (xs.map f) = some (xs.map (fun x => Real.logb 10 (f x))) := by
      unfold log10s
      rw [if_pos]
      · rw [List.map_map]; rfl
      · rw [List.all_eq_true]
        intro y hy
        obtain ⟨x, hx, rfl⟩ := List.mem_map.mp hy
        simpa using hfp x hx
    set ls := xs.map (fun x => Real.logb 10 (f x)) with hls
    have hne : ls ≠ [] := by
      intro h
      rw [hls, List.map_eq_nil_iff] at h
      rw [h] at hl; simp at hl
    have hmono : ∀ x ∈ xs, ∀ y ∈ xs, x ≤ y → Real.logb 10 (f x) ≤ Real.logb 10 (f y) := fun x hx y hy h =>
      (Real.logb_le_logb (by norm_num) (hfp x hx) (hfp y hy)).mpr (hfm x hx y hy h)
    have hmin : ∀ x ∈ xs, minOf ls ≤ Real.logb 10 (f x) := fun x hx => minOf_le (List.mem_map_of_mem hx)
    have hmax : ∀ x ∈ xs, Real.logb 10 (f x) ≤ maxOf ls := fun x hx => le_maxOf (List.mem_map_of_mem hx)
    obtain ⟨xm, hxm, hem⟩ := List.mem_map.mp (minOf_mem hne)
    obtain ⟨xM, hxM, heM⟩ := List.mem_map.mp (maxOf_mem hne)
    rw [← hls] at hem heM
    unfold logWeights
    rw [hfill]
    simp only [hlog]
    cases scale with
    | false =>
      refine ⟨fun x => Real.logb 10 (f x) - minOf ls, ?_, ?_, ?_, ?_, ?_, ?_⟩
      · simp only [Bool.false_eq_true, if_false]
        rw [hls, List.map_map]; rfl
      · intro x hx; have := hmin x hx; simp only; linarith
      · exact ⟨xm, hxm, by simp only; linarith⟩
      · intro x hx y hy h; have := hmono x hx y hy h; simp only; linarith
      · intro h; simp at h
      · intro _ x hx y hy px py
        have e1 : f x = x := by rw [hf]; simp only; rw [if_pos (ne_of_gt px)]
        have e2 : f y = y := by rw [hf]; simp only; rw [if_pos (ne_of_gt py)]
        simp only [e1, e2]
        rw [Real.logb_div (ne_of_gt py) (ne_of_gt px)]; ring
    | true =>
      obtain ⟨x0, hx0, y0, hy0, hx0p, hxy0⟩ := hd rfl
      have hgap : 0 < maxOf ls - minOf ls := by
        have e1 : f x0 = x0 := by rw [hf]; simp only; rw [if_pos (ne_of_gt hx0p)]
        have e2 : f y0 = y0 := by rw [hf]; simp only; rw [if_pos (ne_of_gt (hx0p.trans hxy0))]
        have h1 := hmin x0 hx0
        have h2 := hmax y0 hy0
        rw [e1] at h1; rw [e2] at h2
        have := Real.logb_lt_logb (b := 10) (by norm_num) hx0p hxy0
        linarith
      refine ⟨fun x => (Real.logb 10 (f x) - minOf ls) / (maxOf ls - minOf ls), ?_, ?_, ?_, ?_, ?_, ?_⟩
      · simp only [if_true]
        rw [if_neg hgap.ne', hls, List.map_map]; rfl
      · intro x hx
        have := hmin x hx
        exact div_nonneg (by linarith) hgap.le
      · exact ⟨xm, hxm, by simp only [hem, sub_self, zero_div]⟩
      · intro x hx y hy h
        have := hmono x hx y hy h
        exact div_le_div_of_nonneg_right (by linarith) hgap.le
      · intro _
        refine ⟨fun x hx => ?_, xM, hxM, ?_⟩
        · have := hmax x hx
          simp only; rw [div_le_one hgap]; linarith
        · simp only [heM]; exact div_self hgap.ne'
      · intro h; simp at h

example : ∃ w : ℝ → ℝ, logWeights true [0, 1, 10] = some ([0, 1, 10].map w) ∧ ∀ x ∈ [(0 : ℝ), 1, 10], 0 ≤ w x := by
  obtain ⟨w, h1, h2, _⟩ := C90_log_weights_partial true [0, 1, 10]
    (by intro x hx; simp at hx; rcases hx with h | h | h <;> rw [h] <;> norm_num) (by simp)
    (by simp [List.count_cons]) (fun _ => ⟨1, by simp, 10, by simp, by norm_num, by norm_num⟩)
  exact ⟨w, h1, h2⟩

/-- **C90** is false with two scores of zero: the replacement is zero again, and the weights are not finite,
for every list of non-negative scores with two zeros. -/
theorem C90_two_zero_scores_fails (scale : Bool) (xs : List ℝ) (h0 : ∀ x ∈ xs, 0 ≤ x) (hc : 2 ≤ xs.count 0) :
    logWeights scale xs = none := by
  unfold logWeights
  cases hz : secondSmallest xs with
  | none => simp [fillZeros, hz]
  | some z =>
    have hz0 : z = 0 := by
      have h1 := (secondSmallest_pos h0 hz).1
      have h2 := h0 z (secondSmallest_mem hz)
      rcases lt_or_eq_of_le h2 with h | h
      · have := h1.mp h; omega
      · exact h.symm
    have hmem : (0 : ℝ) ∈ xs := List.count_pos_iff.mp (by omega)
    have hlog : log10s (xs.map (fun x => if x ≠ 0 then x else z)) = none := by
      unfold log10s
      rw [if_neg]
      intro h
      rw [List.all_eq_true] at h
      have := h _ (List.mem_map_of_mem hmem)
      simp [hz0] at this
    simp only [fillZeros, hz, Option.map_some, hlog]

/-- **C90** is false with a single layer: numpy is asked for the second smallest of one score. -/
theorem C90_one_layer_fails (scale : Bool) (x : ℝ) : logWeights scale [x] = none := by
  unfold logWeights fillZeros
  rw [(secondSmallest_none [x]).mpr (by simp)]; rfl

/-- **C90** is false for scaled weights of layers with equal scores: the range to divide by is zero. -/
theorem C90_equal_scores_fails (x : ℝ) (n : ℕ) : logWeights true (List.replicate n x) = none := by
  unfold logWeights
  cases hz : fillZeros (List.replicate n x) with
  | none => rfl
  | some ys =>
    simp only
    cases hl : log10s ys with
    | none => rfl
    | some ls =>
      simp only [if_true]
      unfold fillZeros at hz
      simp only [Option.map_eq_some_iff] at hz
      obtain ⟨z, _, hz⟩ := hz
      unfold log10s at hl
      split_ifs at hl
      simp only [Option.some.injEq] at hl
      rw [if_pos]
      have hall : ∃ v, ∀ l ∈ ls, l = v := by
        refine ⟨Real.logb 10 (if x ≠ 0 then x else z), ?_⟩
        intro l hlm
        rw [← hl, ← hz] at hlm
        simp only [List.map_replicate] at hlm
        exact (List.mem_replicate.mp hlm).2
      obtain ⟨v, hv⟩ := hall
      by_cases hne : ls = []
      · rw [hne]; unfold maxOf minOf; simp
      · rw [hv _ (maxOf_mem hne), hv _ (minOf_mem hne), sub_self]

example : ∀ x ∈ [(0 : ℝ), 0, 1], 0 ≤ x := by intro x hx; simp at hx; rcases hx with h | h <;> rw [h] ; norm_num

/-- **C90**, normalisation: the normalised scores of an image are not negative, keep their order and sum to
less than one. -/
theorem C90_normalized (eps : ℝ) (he : 0 < eps) (row : List ℝ) (h0 : ∀ x ∈ row, 0 ≤ x) :
    (normRow eps row).length = row.length ∧ (∀ y ∈ normRow eps row, 0 ≤ y) ∧ (normRow eps row).sum < 1 ∧
      ∀ (i j : ℕ) (x y : ℝ), row[i]? = some x → row[j]? = some y →
        ∃ x' y', (normRow eps row)[i]? = some x' ∧ (normRow eps row)[j]? = some y' ∧ (x ≤ y ↔ x' ≤ y') := by
  have hs : 0 ≤ row.sum := List.sum_nonneg h0
  have hp : 0 < row.sum + eps := by linarith
  refine ⟨by simp [normRow], ?_, ?_, ?_⟩
  · intro y hy
    obtain ⟨x, hx, rfl⟩ := List.mem_map.mp hy
    exact div_nonneg (h0 x hx) hp.le
  · have : (normRow eps row).sum = row.sum / (row.sum + eps) := by
      unfold normRow
      generalize row.sum + eps = d
      induction row with
      | nil => simp
      | cons a l ih =>
        have := ih (fun x hx => h0 x (by simp [hx])) (List.sum_nonneg (fun x hx => h0 x (by simp [hx])))
          (by have := List.sum_nonneg (fun x hx => h0 x (List.mem_cons_of_mem a hx)); linarith)
        simp only [List.map_cons, List.sum_cons, this]; ring
    rw [this, div_lt_one hp]; linarith
  · intro i j x y hx hy
    refine ⟨x / (row.sum + eps), y / (row.sum + eps), by simp [normRow, hx], by simp [normRow, hy], ?_⟩
    rw [div_le_div_iff_of_pos_right hp]

example : (normRow 1 [1, 2]).sum < 1 := (C90_normalized 1 one_pos [1, 2] (by
  intro x hx; simp at hx; rcases hx with h | h <;> rw [h] <;> norm_num)).2.2.1

/-- **C90**, the mean over the images: with at least one image every layer gets a score that lies between the
least and the largest of its scores in the images. -/
theorem C90_mean (m : ℕ) (rows : List (List ℝ)) (hr : rows ≠ []) (j : ℕ) (hj : j < m) (lo hi : ℝ)
    (hb : ∀ r ∈ rows, lo ≤ r.getD j 0 ∧ r.getD j 0 ≤ hi) :
    ∃ v, (meanRows m rows)[j]? = some v ∧ lo ≤ v ∧ v ≤ hi := by
  refine ⟨(rows.map (fun r => r.getD j 0)).sum / rows.length, by simp [meanRows, hj], ?_, ?_⟩
  · have hl : (0 : ℝ) < rows.length := by
      have := List.length_pos_iff.mpr hr
      exact_mod_cast this
    rw [le_div_iff₀ hl]
    clear hr hl
    induction rows with
    | nil => simp
    | cons r rs ih =>
      have := ih (fun r hr => hb r (by simp [hr]))
      have := (hb r (by simp)).1
      simp only [List.map_cons, List.sum_cons, List.length_cons]; push_cast; linarith
  · have hl : (0 : ℝ) < rows.length := by
      have := List.length_pos_iff.mpr hr
      exact_mod_cast this
    rw [div_le_iff₀ hl]
    clear hr hl
    induction rows with
    | nil => simp
    | cons r rs ih =>
      have := ih (fun r hr => hb r (by simp [hr]))
      have := (hb r (by simp)).2
      simp only [List.map_cons, List.sum_cons, List.length_cons]; push_cast; linarith

example : ∃ v, (meanRows 2 [[1, 5], [3, 7]])[1]? = some v ∧ 5 ≤ v ∧ v ≤ 7 :=
  C90_mean 2 [[1, 5], [3, 7]] (by simp) 1 (by norm_num) 5 7 (by
    intro r hr; simp at hr; rcases hr with h | h <;> rw [h] <;> norm_num)

/-- **C90**, the whole computation: whatever the options, the result has one weight per layer and no weight is
negative, for scores that are not negative. -/
theorem C90_weights (norm log scale : Bool) (eps : ℝ) (he : 0 < eps) (m : ℕ) (rows : List (List ℝ))
    (h0 : ∀ r ∈ rows, ∀ x ∈ r, 0 ≤ x) (ws : List ℝ) (h : hessianWeights norm log scale eps m rows = some ws) :
    ws.length = m ∧ ∀ w ∈ ws, 0 ≤ w := by
  unfold hessianWeights at h
  have hrow : ∀ r ∈ (if norm then rows.map (normRow eps) else rows), ∀ x ∈ r, 0 ≤ x := by
    intro r hr
    cases norm with
    | false => exact h0 r hr
    | true =>
      simp only [if_true] at hr
      obtain ⟨r', hr', rfl⟩ := List.mem_map.mp hr
      exact (C90_normalized eps he r' (h0 r' hr')).2.1
  simp only at h
  generalize (if norm then rows.map (normRow eps) else rows) = rows' at h hrow
  have hlen : (meanRows m rows').length = m := by simp [meanRows]
  have hnn : ∀ x ∈ meanRows m rows', 0 ≤ x := by
    intro x hx
    obtain ⟨j, _, rfl⟩ := List.mem_map.mp hx
    apply div_nonneg _ (by positivity)
    apply List.sum_nonneg
    intro y hy
    obtain ⟨r, hr, rfl⟩ := List.mem_map.mp hy
    rw [List.getD_eq_getElem?_getD]
    cases e : r[j]? with
    | none => simp
    | some v => exact hrow r hr v (List.mem_of_getElem? e)
  cases log with
  | false => simp only [Bool.false_eq_true, if_false, Option.some.injEq] at h; rw [← h]; exact ⟨hlen, hnn⟩
  | true =>
    simp only [if_true] at h
    unfold logWeights at h
    cases hf : fillZeros (meanRows m rows') with
    | none => rw [hf] at h; simp at h
    | some ys =>
      rw [hf] at h; simp only at h
      have hy : ys.length = m := by
        unfold fillZeros at hf
        simp only [Option.map_eq_some_iff] at hf
        obtain ⟨z, _, rfl⟩ := hf
        simp [hlen]
      cases hl : log10s ys with
      | none => rw [hl] at h; simp at h
      | some ls =>
        rw [hl] at h; simp only at h
        have hls : ls.length = m := by
          unfold log10s at hl
          split_ifs at hl
          simp only [Option.some.injEq] at hl
          rw [← hl]; simp [hy]
        have hgap : 0 ≤ maxOf ls - minOf ls := by
          by_cases hne : ls = []
          · rw [hne]; simp [maxOf, minOf]
          · have := minOf_le (maxOf_mem hne); linarith
        split_ifs at h <;> simp only [Option.some.injEq] at h <;> subst h
        · refine ⟨by simp [hls], fun w hw => ?_⟩
          obtain ⟨l, hl', rfl⟩ := List.mem_map.mp hw
          exact div_nonneg (by have := minOf_le hl'; linarith) hgap
        · refine ⟨by simp [hls], fun w hw => ?_⟩
          obtain ⟨l, hl', rfl⟩ := List.mem_map.mp hw
          have := minOf_le hl'; linarith

/-- **C90**, which computation each option selects: without the logarithm the weights are the mean scores,
those of the normalised scores when normalising is on. -/
theorem C90_options (scale : Bool) (eps : ℝ) (m : ℕ) (rows : List (List ℝ)) :
    hessianWeights false false scale eps m rows = some (meanRows m rows) ∧
    hessianWeights true false scale eps m rows = some (meanRows m (rows.map (normRow eps))) ∧
    hessianWeights false true scale eps m rows = logWeights scale (meanRows m rows) ∧
    hessianWeights true true scale eps m rows = logWeights scale (meanRows m (rows.map (normRow eps))) :=
  ⟨rfl, rfl, rfl, rfl⟩

example : ∃ ws, hessianWeights true false false (1 : ℝ) 2 [[1, 2], [0, 3]] = some ws ∧ ws.length = 2 :=
  ⟨_, rfl, by simp [meanRows]⟩

end MCT.Train
