import Verif.Search.Lemmas
import Mathlib.Analysis.SpecialFunctions.Log.Basic
import Mathlib.Tactic.IntervalCases

/-!
# C151: the errors of histograms by which ranges are chosen
-/

namespace MCT.Search

/-! ### Model -/

/-- `_mse_error_histogram`, `_mae_error_histogram` and `_lp_error_histogram` (error_functions.py:29-96) for a natural
exponent `p`: the mean absolute error is `p = 1`, the mean square error `p = 2` and `|x| ^ 2 = x ^ 2`.  The last edge
is left out by the zip. -/
noncomputable def powErrHist (p : ℕ) (qb bins counts : List ℝ) : ℝ :=
  ((List.zipWith (fun d c => d * c) (List.zipWith (fun q b => |q - b| ^ p) qb bins) counts).sum) / counts.sum

/-- `np.where(l satisfies p)[0]`, the indices in increasing order. -/
noncomputable def whereIdx (p : ℝ → Prop) (l : List ℝ) : List ℕ :=
  open Classical in (List.range l.length).filter fun i => decide (p (l.getD i 0))

/-- `_is_range_valid` (error_functions.py:271-288). -/
noncomputable def rangeValid (bins : List ℝ) (lo hi : ℝ) : Bool :=
  !((whereIdx (fun b => lo ≤ b) bins).isEmpty || (whereIdx (fun b => b < hi) bins).isEmpty)

/-- `_get_bins_indices_from_range` (error_functions.py:249-268); the assertions and the extremes of an empty array are
errors, and subtraction on `ℕ` stops at 0, like the `max`. -/
noncomputable def binRange (bins : List ℝ) (lo hi : ℝ) : Option (ℕ × ℕ) :=
  if lo < hi then
    (whereIdx (fun b => lo ≤ b) bins).head?.bind fun a =>
    (whereIdx (fun b => b < hi) bins).getLast?.bind fun b =>
    if a - 1 ≤ b then some (a - 1, b) else none
  else none

/-- `l[i:j]`, as in `_get_sliced_histogram` (error_functions.py:357-378). -/
def slice (l : List ℝ) (i j : ℕ) : List ℝ := (l.take j).drop i

/-- `l[0] += x`; the list is not empty where this is used. -/
def addHead (x : ℝ) : List ℝ → List ℝ
  | [] => []
  | y :: ys => (y + x) :: ys

/-- `l[-1] += x`; the list is not empty where this is used. -/
def addLast (x : ℝ) : List ℝ → List ℝ
  | [] => []
  | [y] => [y + x]
  | y :: z :: ys => y :: addLast x (z :: ys)

/-- `_compute_clipped_counts` (error_functions.py:328-354). -/
def clippedCounts (counts sub : List ℝ) (i j : ℕ) : List ℝ :=
  addLast (counts.drop j).sum (addHead (counts.take i).sum sub)

/-- `sum_relative` of the bins quantized to `v` (error_functions.py:233-235), from the quantized values and the counts
of the bins. -/
noncomputable def sumRelative (pairs : List (ℝ × ℝ)) (v : ℝ) : ℝ :=
  ((pairs.filter fun p => decide (p.1 = v)).map (·.2)).sum /
    ((((pairs.filter fun p => decide (p.1 = v)).filter fun p => decide (0 < p.2)).length : ℝ) + 1 / 1000000)

/-- One round of the loop over the quantized values (error_functions.py:232-236); the third entry is `qbc`. -/
noncomputable def qbcStep (pairs : List (ℝ × ℝ)) (t : List (ℝ × ℝ × ℝ)) (v : ℝ) : List (ℝ × ℝ × ℝ) :=
  t.map fun x => if x.1 = v then (x.1, x.2.1, sumRelative pairs v * (if 0 < x.2.1 then 1 else 0)) else x

/-- `qbc` (error_functions.py:230-236), `vs` the distinct quantized values. -/
noncomputable def qbc (pairs : List (ℝ × ℝ)) (vs : List ℝ) : List ℝ :=
  (vs.foldl (qbcStep pairs) (pairs.map fun p => (p.1, p.2, 0))).map fun x => x.2.2

/-- `l / np.sum(l)` (error_functions.py:238,241). -/
noncomputable def normalise (l : List ℝ) : List ℝ := l.map fun x => x / l.sum

/-- `_smooth_distribution` (error_functions.py:291-325), in exact arithmetic; the failed assertions and the minimum of
an empty array are errors. -/
noncomputable def smooth (p : List ℝ) : Option (List ℝ) :=
  (npMin (p.filter fun x => decide (x ≠ 0))).bind fun m =>
    let ε := m / (2 * p.length)
    let nz : ℝ := (p.filter fun x => decide (x ≠ 0)).length
    let z : ℝ := p.length - nz
    let h := p.map fun x => if x = 0 then x + ε else x + -(ε * z / nz)
    if ε ≤ 0 then none else if h.any fun x => decide (x ≤ 0) then none else some h

/-- `np.sum(p_float * np.log(p_float / p_fxp))` (error_functions.py:244). -/
noncomputable def klOf (p q : List ℝ) : ℝ := (List.zipWith (fun a b => a * Real.log (a / b)) p q).sum

/-- `_kl_error_histogram` (error_functions.py:184-244): the quantized edges, the edges, the counts and the range.  The
counts of the quantized histogram are not used by the code. -/
noncomputable def klHist (qb bins counts : List ℝ) (lo hi : ℝ) : Option (Loss ℝ) :=
  if rangeValid bins lo hi then
    (binRange bins lo hi).bind fun r =>
    if r.1 = r.2 then some (.fin 0)
    else if (slice counts r.1 r.2).all fun c => decide (c = 0) then some .inf
    else
      (smooth (normalise (qbc ((slice qb r.1 r.2).zip (slice counts r.1 r.2))
        (slice qb r.1 (r.2 + 1)).dedup))).bind fun pq =>
      (smooth (normalise (clippedCounts counts (slice counts r.1 r.2) r.1 r.2))).map fun pf =>
      .fin (klOf pf pq)
  else some .inf

/-! ### Specification -/

/-- The Kullback-Leibler divergence is that of two distributions. -/
structure Distribution (n : ℕ) (p : List ℝ) : Prop where
  length : p.length = n
  pos : ∀ x ∈ p, 0 < x
  sum : p.sum = 1

/-- The bin `i`, between the edges `i` and `i + 1`, ends in the range. -/
def Ends (bins : List ℝ) (lo hi : ℝ) (i : ℕ) : Prop :=
  i + 1 < bins.length ∧ lo ≤ bins.getD (i + 1) 0 ∧ bins.getD (i + 1) 0 < hi

/-- A histogram: edges in order and a count for each bin. -/
structure Histogram (bins counts : List ℝ) : Prop where
  sorted : bins.Pairwise (· < ·)
  length : bins.length = counts.length + 1
  nonneg : ∀ c ∈ counts, 0 ≤ c

/-! ### Divergence -/

theorem log_gap {a b : ℝ} (ha : 0 < a) (hb : 0 < b) :
    a - b ≤ a * Real.log (a / b) ∧ (a * Real.log (a / b) = a - b → a = b) := by
  have hba : 0 < b / a := div_pos hb ha
  have h1 : a * Real.log (a / b) = -(a * Real.log (b / a)) := by
    rw [← inv_div, Real.log_inv]; ring
  have h2 : a * (b / a - 1) = b - a := by field_simp
  constructor
  · have := mul_le_mul_of_nonneg_left (Real.log_le_sub_one_of_pos hba) ha.le
    rw [h1]; linarith
  · intro h
    by_contra hne
    have hne' : b / a ≠ 1 := fun e => hne ((div_eq_one_iff_eq ha.ne').mp e).symm
    have := mul_lt_mul_of_pos_left (Real.log_lt_sub_one_of_pos hba hne') ha
    rw [h1] at h; linarith

theorem klOf_gap (p q : List ℝ) (hl : p.length = q.length) (hp : ∀ x ∈ p, 0 < x) (hq : ∀ x ∈ q, 0 < x) :
    p.sum - q.sum ≤ klOf p q ∧ (klOf p q = p.sum - q.sum → p = q) := by
  induction p generalizing q with
  | nil =>
    cases q with
    | nil => simp [klOf]
    | cons b q => simp at hl
  | cons a p ih =>
    cases q with
    | nil => simp at hl
    | cons b q =>
      obtain ⟨h1, h2⟩ := ih q (by simpa using hl) (fun x hx => hp x (by simp [hx])) fun x hx => hq x (by simp [hx])
      obtain ⟨g1, g2⟩ := log_gap (hp a (by simp)) (hq b (by simp))
      have e : klOf (a :: p) (b :: q) = a * Real.log (a / b) + klOf p q := by simp [klOf]
      rw [e, List.sum_cons, List.sum_cons]
      refine ⟨by linarith, fun h => ?_⟩
      rw [g2 (by linarith), h2 (by linarith)]

theorem klOf_self (p : List ℝ) (hp : ∀ x ∈ p, 0 < x) : klOf p p = 0 := by
  induction p with
  | nil => simp [klOf]
  | cons a p ih =>
    have e : klOf (a :: p) (a :: p) = a * Real.log (a / a) + klOf p p := by simp [klOf]
    rw [e, ih fun x hx => hp x (by simp [hx]), div_self (hp a (by simp)).ne']
    simp

theorem klOf_distributions {n : ℕ} {p q : List ℝ} (hp : Distribution n p) (hq : Distribution n q) :
    0 ≤ klOf p q ∧ (klOf p q = 0 ↔ p = q) := by
  obtain ⟨h1, h2⟩ := klOf_gap p q (hp.length.trans hq.length.symm) hp.pos hq.pos
  rw [hp.sum, hq.sum, sub_self] at h1 h2
  exact ⟨h1, h2, fun h => by rw [h]; exact klOf_self q hq.pos⟩

/-! ### Smoothing -/

theorem sum_smooth (p : List ℝ) (ε r : ℝ) :
    (p.map fun x => if x = 0 then x + ε else x + -r).sum =
      p.sum + ε * (p.length - (p.filter fun x => decide (x ≠ 0)).length) -
        r * (p.filter fun x => decide (x ≠ 0)).length := by
  induction p with
  | nil => simp
  | cons a p ih =>
    rw [List.map_cons, List.sum_cons, ih, List.sum_cons]
    by_cases ha : a = 0
    · subst ha; simp; ring
    · simp [ha]; ring

theorem smooth_some {p : List ℝ} (h0 : ∀ x ∈ p, 0 ≤ x) (hne : ∃ x ∈ p, x ≠ 0) (hs : p.sum = 1) :
    ∃ h, smooth p = some h ∧ Distribution p.length h := by
  obtain ⟨x, hx, hx0⟩ := hne
  have hmem : x ∈ p.filter fun x => decide (x ≠ 0) := List.mem_filter.mpr ⟨hx, by simpa using hx0⟩
  obtain ⟨m, hm, hmm, hmin⟩ := npMin_spec (List.ne_nil_of_mem hmem)
  have hm0 : 0 < m := by
    rw [List.mem_filter] at hmm
    exact lt_of_le_of_ne (h0 m hmm.1) (Ne.symm (by simpa using hmm.2))
  have hlen : 0 < p.length := List.length_pos_of_mem hx
  have hlenR : (0 : ℝ) < p.length := by exact_mod_cast hlen
  set nz : ℝ := ((p.filter fun x => decide (x ≠ 0)).length : ℝ) with hnz
  have hnz1 : 1 ≤ nz := by
    have : 0 < (p.filter fun x => decide (x ≠ 0)).length := List.length_pos_of_mem hmem
    rw [hnz]; exact_mod_cast this
  have hnzle : nz ≤ p.length := by rw [hnz]; exact_mod_cast List.length_filter_le _ _
  have hε : 0 < m / (2 * p.length) := by positivity
  have hr : m / (2 * p.length) * (p.length - nz) / nz ≤ m / 2 := by
    rw [div_le_iff₀ (by linarith)]
    have h1 : m / (2 * p.length) * (p.length - nz) ≤ m / (2 * p.length) * p.length :=
      mul_le_mul_of_nonneg_left (by linarith) hε.le
    have h2 : m / (2 * p.length) * p.length = m / 2 := by field_simp
    have h3 : m / 2 ≤ m / 2 * nz := le_mul_of_one_le_right (by linarith) hnz1
    linarith
  unfold smooth
  rw [hm, Option.bind_some]
  dsimp only
  rw [← hnz, if_neg (not_le.mpr hε)]
  have hpos : ∀ y ∈ p.map (fun x => if x = 0 then x + m / (2 * p.length)
      else x + -(m / (2 * p.length) * (p.length - nz) / nz)), 0 < y := by
    intro y hy
    obtain ⟨x, hx, rfl⟩ := List.mem_map.mp hy
    split_ifs with h
    · rw [h]; linarith
    · have := hmin x (List.mem_filter.mpr ⟨hx, by simpa using h⟩)
      linarith
  rw [if_neg (by
    rw [Bool.not_eq_true, List.any_eq_false]
    intro y hy
    simpa using hpos y hy)]
  refine ⟨_, rfl, by simp, hpos, ?_⟩
  rw [sum_smooth, ← hnz, hs]
  have : m / (2 * p.length) * (p.length - nz) / nz * nz = m / (2 * p.length) * (p.length - nz) := by
    field_simp
  linarith

theorem normalise_smooth {l : List ℝ} (h0 : ∀ x ∈ l, 0 ≤ x) (hs : 0 < l.sum) :
    ∃ h, smooth (normalise l) = some h ∧ Distribution l.length h := by
  have hlen : (normalise l).length = l.length := by simp [normalise]
  rw [← hlen]
  refine smooth_some ?_ ?_ ?_
  · intro x hx
    obtain ⟨y, hy, rfl⟩ := List.mem_map.mp hx
    exact div_nonneg (h0 y hy) hs.le
  · by_contra hn
    push Not at hn
    have : ∀ y ∈ l, y = 0 := by
      intro y hy
      have := hn (y / l.sum) (List.mem_map.mpr ⟨y, hy, rfl⟩)
      rcases div_eq_zero_iff.mp this with h | h
      · exact h
      · exact absurd h hs.ne'
    rw [List.sum_eq_zero this] at hs
    exact lt_irrefl _ hs
  · unfold normalise
    have : (l.map fun x => x / l.sum) = l.map fun x => x * (l.sum)⁻¹ := by simp [div_eq_mul_inv]
    rw [this, List.sum_map_mul_right]
    simp only [List.map_id']
    exact mul_inv_cancel₀ hs.ne'

/-! ### Counts -/

theorem addHead_sum (x : ℝ) {l : List ℝ} (h : l ≠ []) : (addHead x l).sum = l.sum + x := by
  cases l with
  | nil => exact absurd rfl h
  | cons y ys => simp [addHead]; ring

theorem addLast_sum (x : ℝ) {l : List ℝ} (h : l ≠ []) : (addLast x l).sum = l.sum + x := by
  induction l with
  | nil => exact absurd rfl h
  | cons y ys ih =>
    cases ys with
    | nil => simp [addLast]
    | cons z zs =>
      have := ih (by simp)
      rw [show addLast x (y :: z :: zs) = y :: addLast x (z :: zs) from rfl]
      rw [List.sum_cons, this, List.sum_cons (a := y)]; ring

theorem addHead_length (x : ℝ) (l : List ℝ) : (addHead x l).length = l.length := by
  cases l <;> simp [addHead]

theorem addLast_length (x : ℝ) (l : List ℝ) : (addLast x l).length = l.length := by
  induction l with
  | nil => rfl
  | cons y ys ih =>
    cases ys with
    | nil => simp [addLast]
    | cons z zs =>
      rw [show addLast x (y :: z :: zs) = y :: addLast x (z :: zs) from rfl, List.length_cons, ih]; rfl

theorem addHead_nonneg {x : ℝ} (hx : 0 ≤ x) {l : List ℝ} (h : ∀ y ∈ l, 0 ≤ y) : ∀ y ∈ addHead x l, 0 ≤ y := by
  cases l with
  | nil => simp [addHead]
  | cons z zs =>
    simp only [addHead, List.mem_cons, forall_eq_or_imp] at h ⊢
    exact ⟨add_nonneg h.1 hx, h.2⟩

theorem addLast_nonneg {x : ℝ} (hx : 0 ≤ x) {l : List ℝ} (h : ∀ y ∈ l, 0 ≤ y) : ∀ y ∈ addLast x l, 0 ≤ y := by
  induction l with
  | nil => simp [addLast]
  | cons z zs ih =>
    cases zs with
    | nil =>
      simp only [addLast, List.mem_singleton, forall_eq] at h ⊢
      exact add_nonneg h hx
    | cons w ws =>
      rw [List.forall_mem_cons] at h
      rw [addLast, List.forall_mem_cons]
      exact ⟨h.1, ih h.2⟩

theorem slice_sum (l : List ℝ) (i j : ℕ) (hij : i ≤ j) :
    (l.take i).sum + (slice l i j).sum + (l.drop j).sum = l.sum := by
  unfold slice
  have h1 : (l.take j).take i = l.take i := by rw [List.take_take, min_eq_left hij]
  rw [← h1, ← List.sum_append, List.take_append_drop, ← List.sum_append, List.take_append_drop]

theorem slice_length (l : List ℝ) (i j : ℕ) (hj : j ≤ l.length) : (slice l i j).length = j - i := by
  simp [slice, hj]

theorem slice_mem {l : List ℝ} {i j : ℕ} {x : ℝ} (h : x ∈ slice l i j) : x ∈ l :=
  List.mem_of_mem_take (List.mem_of_mem_drop h)

theorem qbc_eq (pairs : List (ℝ × ℝ)) (vs : List ℝ) :
    vs.foldl (qbcStep pairs) (pairs.map fun p => (p.1, p.2, 0)) =
      pairs.map fun p => (p.1, p.2, if p.1 ∈ vs then sumRelative pairs p.1 * (if 0 < p.2 then 1 else 0) else 0) := by
  induction vs using List.reverseRecOn with
  | nil => simp
  | append_singleton vs v ih =>
    rw [List.foldl_append, ih]
    simp only [List.foldl_cons, List.foldl_nil, qbcStep, List.map_map]
    refine List.map_congr_left fun p _ => ?_
    simp only [Function.comp_apply, List.mem_append, List.mem_singleton]
    by_cases h : p.1 = v
    · simp [h]
    · simp [h]

theorem qbc_map {pairs : List (ℝ × ℝ)} {vs : List ℝ} (h : ∀ p ∈ pairs, p.1 ∈ vs) :
    qbc pairs vs = pairs.map fun p => sumRelative pairs p.1 * (if 0 < p.2 then 1 else 0) := by
  unfold qbc
  rw [qbc_eq, List.map_map]
  refine List.map_congr_left fun p hp => ?_
  simp [h p hp]

theorem sumRelative_nonneg {pairs : List (ℝ × ℝ)} (h : ∀ p ∈ pairs, 0 ≤ p.2) (v : ℝ) : 0 ≤ sumRelative pairs v := by
  unfold sumRelative
  refine div_nonneg (List.sum_nonneg fun x hx => ?_) (by positivity)
  obtain ⟨p, hp, rfl⟩ := List.mem_map.mp hx
  exact h p (List.mem_filter.mp hp).1

theorem sumRelative_pos {pairs : List (ℝ × ℝ)} (h : ∀ p ∈ pairs, 0 ≤ p.2) {p : ℝ × ℝ} (hp : p ∈ pairs)
    (h0 : 0 < p.2) : 0 < sumRelative pairs p.1 := by
  unfold sumRelative
  refine div_pos ?_ (by positivity)
  have hm : p.2 ∈ (pairs.filter fun q => decide (q.1 = p.1)).map (·.2) :=
    List.mem_map.mpr ⟨p, List.mem_filter.mpr ⟨hp, by simp⟩, rfl⟩
  refine lt_of_lt_of_le h0 (List.single_le_sum ?_ _ hm)
  intro x hx
  obtain ⟨q, hq, rfl⟩ := List.mem_map.mp hx
  exact h q (List.mem_filter.mp hq).1

theorem qbc_good {pairs : List (ℝ × ℝ)} {vs : List ℝ} (hv : ∀ p ∈ pairs, p.1 ∈ vs) (h : ∀ p ∈ pairs, 0 ≤ p.2)
    (hpos : ∃ p ∈ pairs, 0 < p.2) : (∀ x ∈ qbc pairs vs, 0 ≤ x) ∧ 0 < (qbc pairs vs).sum := by
  rw [qbc_map hv]
  have hn : ∀ x ∈ pairs.map fun p => sumRelative pairs p.1 * (if 0 < p.2 then 1 else 0), 0 ≤ x := by
    intro x hx
    obtain ⟨p, hp, rfl⟩ := List.mem_map.mp hx
    have := sumRelative_nonneg h p.1
    split_ifs <;> simp [this]
  refine ⟨hn, ?_⟩
  obtain ⟨p, hp, h0⟩ := hpos
  refine lt_of_lt_of_le (sumRelative_pos h hp h0) (List.single_le_sum hn _ (List.mem_map.mpr ⟨p, hp, by simp [h0]⟩))

/-! ### The range of bins -/

theorem mem_whereIdx {p : ℝ → Prop} {l : List ℝ} {i : ℕ} : i ∈ whereIdx p l ↔ i < l.length ∧ p (l.getD i 0) := by
  classical
  simp [whereIdx]

theorem whereIdx_sorted (p : ℝ → Prop) (l : List ℝ) : (whereIdx p l).Pairwise (· < ·) := by
  classical
  unfold whereIdx
  exact List.Pairwise.filter _ List.pairwise_lt_range

theorem head_least {l : List ℕ} {a : ℕ} (hs : l.Pairwise (· < ·)) (h : l.head? = some a) : a ∈ l ∧ ∀ b ∈ l, a ≤ b := by
  cases l with
  | nil => cases h
  | cons x l =>
    cases h
    rw [List.pairwise_cons] at hs
    refine ⟨by simp, fun b hb => ?_⟩
    rcases List.mem_cons.mp hb with rfl | hb
    · exact le_refl _
    · exact (hs.1 b hb).le

theorem last_greatest {l : List ℕ} {a : ℕ} (hs : l.Pairwise (· < ·)) (h : l.getLast? = some a) :
    a ∈ l ∧ ∀ b ∈ l, b ≤ a := by
  refine ⟨List.mem_of_getLast? h, fun b hb => ?_⟩
  obtain ⟨l', rfl⟩ : ∃ l', l = l' ++ [a] := by
    rcases List.eq_nil_or_concat l with rfl | ⟨l', x, rfl⟩
    · cases h
    · simp at h; subst h; exact ⟨l', by simp⟩
  rw [List.pairwise_append] at hs
  rcases List.mem_append.mp hb with hb | hb
  · exact (hs.2.2 b hb a (by simp)).le
  · simp at hb; omega

/-- The range of bins exists, and consists of the bins that end in the range of values. -/
theorem binRange_some {bins counts : List ℝ} (hh : Histogram bins counts) {lo hi : ℝ} (hlt : lo < hi)
    (hv : rangeValid bins lo hi = true) :
    ∃ f l, binRange bins lo hi = some (f, l) ∧ f ≤ l ∧ l < bins.length ∧
      ∀ i, Ends bins lo hi i ↔ f ≤ i ∧ i < l := by
  have hmono : ∀ i j, i ≤ j → j < bins.length → bins.getD i 0 ≤ bins.getD j 0 := by
    intro i j hij hj
    rcases eq_or_lt_of_le hij with rfl | hij
    · exact le_refl _
    · have := List.pairwise_iff_getElem.mp hh.sorted i j (hij.trans hj) hj hij
      rw [List.getD_eq_getElem?_getD, List.getD_eq_getElem?_getD, List.getElem?_eq_getElem hj,
        List.getElem?_eq_getElem (hij.trans hj), Option.getD_some, Option.getD_some]
      exact this.le
  unfold rangeValid at hv
  simp only [Bool.not_eq_true', Bool.or_eq_false_iff, List.isEmpty_eq_false_iff] at hv
  obtain ⟨ha, hb⟩ := hv
  obtain ⟨a, ha⟩ : ∃ a, (whereIdx (fun b => lo ≤ b) bins).head? = some a :=
    ⟨_, List.head?_eq_some_head ha⟩
  obtain ⟨b, hb⟩ : ∃ a, (whereIdx (fun b => b < hi) bins).getLast? = some a :=
    ⟨_, List.getLast?_eq_some_getLast hb⟩
  obtain ⟨a1, a2⟩ := head_least (whereIdx_sorted _ _) ha
  obtain ⟨b1, b2⟩ := last_greatest (whereIdx_sorted _ _) hb
  rw [mem_whereIdx] at a1 b1
  have hab : a - 1 ≤ b := by
    rcases Nat.eq_zero_or_pos a with h | h
    · omega
    · refine b2 _ (mem_whereIdx.mpr ⟨by omega, lt_trans ?_ hlt⟩)
      by_contra hn
      have := a2 (a - 1) (mem_whereIdx.mpr ⟨by omega, not_lt.mp hn⟩)
      omega
  refine ⟨a - 1, b, ?_, hab, b1.1, fun i => ?_⟩
  · unfold binRange
    rw [if_pos hlt, ha, hb, Option.bind_some, Option.bind_some, if_pos hab]
  · constructor
    · rintro ⟨h1, h2, h3⟩
      have e1 := a2 (i + 1) (mem_whereIdx.mpr ⟨h1, h2⟩)
      have e2 := b2 (i + 1) (mem_whereIdx.mpr ⟨h1, h3⟩)
      omega
    · rintro ⟨h1, h2⟩
      refine ⟨by omega, a1.2.trans (hmono a (i + 1) (by omega) (by omega)), lt_of_le_of_lt ?_ b1.2⟩
      exact hmono (i + 1) b (by omega) b1.1

/-! ### The error -/

/-- The count of the bin `i`. -/
def countOf (counts : List ℝ) (i : ℕ) : ℝ := counts.getD i 0

theorem slice_all_zero {l : List ℝ} {i j : ℕ} (hj : j ≤ l.length) :
    ((slice l i j).all fun c => decide (c = 0)) = true ↔ ∀ k, i ≤ k → k < j → countOf l k = 0 := by
  rw [List.all_eq_true]
  simp only [decide_eq_true_eq, countOf, List.getD_eq_getElem?_getD]
  constructor
  · intro h k h1 h2
    have hk : k < l.length := by omega
    refine h _ ?_
    unfold slice
    rw [List.mem_iff_getElem]
    refine ⟨k - i, by simp; omega, ?_⟩
    rw [List.getElem_drop, List.getElem_take, List.getElem?_eq_getElem hk, Option.getD_some]
    congr 1
    omega
  · intro h x hx
    unfold slice at hx
    obtain ⟨k, hk, rfl⟩ := List.mem_iff_getElem.mp hx
    simp only [List.length_drop, List.length_take] at hk
    rw [List.getElem_drop, List.getElem_take]
    have := h (i + k) (by omega) (by omega)
    rwa [List.getElem?_eq_getElem (by omega), Option.getD_some] at this

theorem clipped_good {counts : List ℝ} (h0 : ∀ c ∈ counts, 0 ≤ c) {i j : ℕ} (hij : i < j) (hj : j ≤ counts.length) :
    (∀ x ∈ clippedCounts counts (slice counts i j) i j, 0 ≤ x) ∧
      (clippedCounts counts (slice counts i j) i j).sum = counts.sum ∧
      (clippedCounts counts (slice counts i j) i j).length = j - i := by
  have hne : slice counts i j ≠ [] := by
    rw [ne_eq, ← List.length_eq_zero_iff, slice_length _ _ _ hj]; omega
  have hne' : addHead (counts.take i).sum (slice counts i j) ≠ [] := by
    rw [ne_eq, ← List.length_eq_zero_iff, addHead_length, slice_length _ _ _ hj]; omega
  unfold clippedCounts
  refine ⟨?_, ?_, by rw [addLast_length, addHead_length, slice_length _ _ _ hj]⟩
  · refine addLast_nonneg (List.sum_nonneg fun x hx => h0 x (List.mem_of_mem_drop hx)) (addHead_nonneg
      (List.sum_nonneg fun x hx => h0 x (List.mem_of_mem_take hx)) fun y hy => h0 y (slice_mem hy))
  · rw [addLast_sum _ hne', addHead_sum _ hne, ← slice_sum counts i j hij.le]; ring

/-- The quantized values of the kept bins and their counts. -/
def keptPairs (qb counts : List ℝ) (f l : ℕ) : List (ℝ × ℝ) := (slice qb f l).zip (slice counts f l)

theorem keptPairs_length {qb counts : List ℝ} {f l : ℕ} (hq : qb.length = counts.length + 1)
    (hl : l ≤ counts.length) : (keptPairs qb counts f l).length = l - f := by
  unfold keptPairs
  rw [List.length_zip, slice_length _ _ _ hl, slice_length _ _ _ (by omega), min_self]

theorem keptPairs_snd {qb counts : List ℝ} {f l : ℕ} (hq : qb.length = counts.length + 1)
    (hl : l ≤ counts.length) : (keptPairs qb counts f l).map (·.2) = slice counts f l := by
  unfold keptPairs
  exact List.map_snd_zip (by rw [slice_length _ _ _ hl, slice_length _ _ _ (by omega)])

theorem keptPairs_mem {qb counts : List ℝ} {f l : ℕ} (hfl : f ≤ l) :
    ∀ p ∈ keptPairs qb counts f l, p.1 ∈ (slice qb f (l + 1)).dedup := by
  intro p hp
  rw [List.mem_dedup]
  have h1 : p.1 ∈ slice qb f l := (List.of_mem_zip hp).1
  unfold slice at h1 ⊢
  obtain ⟨k, hk, hk'⟩ := List.mem_iff_getElem.mp h1
  simp only [List.length_drop, List.length_take] at hk
  rw [List.mem_iff_getElem]
  refine ⟨k, by simp; omega, ?_⟩
  rw [← hk']
  simp

theorem klHist_main {qb bins counts : List ℝ} (hh : Histogram bins counts) (hq : qb.length = bins.length) {lo hi : ℝ}
    (hlt : lo < hi) (hv : rangeValid bins lo hi = true) {f l : ℕ} (hr : binRange bins lo hi = some (f, l))
    (hfl : f < l) (hl : l < bins.length) (hc : ∃ k, f ≤ k ∧ k < l ∧ 0 < countOf counts k) :
    ∃ p q, Distribution (l - f) p ∧ Distribution (l - f) q ∧
      smooth (normalise (clippedCounts counts (slice counts f l) f l)) = some p ∧
      smooth (normalise (qbc (keptPairs qb counts f l) (slice qb f (l + 1)).dedup)) = some q ∧
      klHist qb bins counts lo hi = some (.fin (klOf p q)) := by
  have hlen := hh.length
  have hlc : l ≤ counts.length := by omega
  obtain ⟨k, hk1, hk2, hk3⟩ := hc
  obtain ⟨c1, c2, c3⟩ := clipped_good hh.nonneg hfl hlc
  have hkc : k < counts.length := by omega
  have hkm : countOf counts k ∈ slice counts f l := by
    unfold slice countOf
    rw [List.mem_iff_getElem]
    refine ⟨k - f, by simp; omega, ?_⟩
    rw [List.getElem_drop, List.getElem_take, List.getD_eq_getElem?_getD, List.getElem?_eq_getElem hkc,
      Option.getD_some]
    congr 1
    omega
  have hsum : 0 < counts.sum := lt_of_lt_of_le hk3 (List.single_le_sum hh.nonneg _ (slice_mem hkm))
  obtain ⟨p, p1, p2⟩ := normalise_smooth c1 (by rw [c2]; exact hsum)
  rw [c3] at p2
  have hsnd := keptPairs_snd (qb := qb) (f := f) (by omega) hlc
  have hpn : ∀ x ∈ keptPairs qb counts f l, 0 ≤ x.2 := by
    intro x hx
    have : x.2 ∈ slice counts f l := by rw [← hsnd]; exact List.mem_map.mpr ⟨x, hx, rfl⟩
    exact hh.nonneg _ (slice_mem this)
  have hpp : ∃ x ∈ keptPairs qb counts f l, 0 < x.2 := by
    rw [← hsnd] at hkm
    obtain ⟨x, hx, hx2⟩ := List.mem_map.mp hkm
    exact ⟨x, hx, by rw [hx2]; exact hk3⟩
  have hmem := keptPairs_mem (qb := qb) (counts := counts) hfl.le
  obtain ⟨q1, q2⟩ := qbc_good hmem hpn hpp
  obtain ⟨q, q3, q4⟩ := normalise_smooth q1 q2
  have hql : (qbc (keptPairs qb counts f l) (slice qb f (l + 1)).dedup).length = l - f := by
    rw [qbc_map hmem, List.length_map, keptPairs_length (by omega) hlc]
  rw [hql] at q4
  refine ⟨p, q, p2, q4, p1, q3, ?_⟩
  unfold klHist
  rw [if_pos hv, hr, Option.bind_some]
  dsimp only
  rw [if_neg (by omega), if_neg (by
    rw [slice_all_zero hlc]
    exact fun h => hk3.ne' (h k hk1 hk2))]
  unfold keptPairs at q3
  rw [q3, Option.bind_some, p1, Option.map_some]

theorem rangeValid_iff {bins : List ℝ} {lo hi : ℝ} :
    rangeValid bins lo hi = true ↔ (∃ b ∈ bins, lo ≤ b) ∧ ∃ b ∈ bins, b < hi := by
  have key : ∀ p : ℝ → Prop, (whereIdx p bins).isEmpty = false ↔ ∃ b ∈ bins, p b := by
    intro p
    rw [List.isEmpty_eq_false_iff_exists_mem]
    constructor
    · rintro ⟨i, hi⟩
      obtain ⟨h1, h2⟩ := mem_whereIdx.mp hi
      rw [List.getD_eq_getElem?_getD, List.getElem?_eq_getElem h1] at h2
      exact ⟨_, List.getElem_mem _, h2⟩
    · rintro ⟨b, hb, hp⟩
      obtain ⟨i, hi, rfl⟩ := List.mem_iff_getElem.mp hb
      refine ⟨i, mem_whereIdx.mpr ⟨hi, ?_⟩⟩
      rwa [List.getD_eq_getElem?_getD, List.getElem?_eq_getElem hi]
  unfold rangeValid
  rw [Bool.not_eq_true', Bool.or_eq_false_iff, key, key]

/-- The error of a proper range never fails.  It is infinite when no edge is in reach or the bins that end in the
range are empty, zero when no bin ends in the range, and otherwise the divergence of two positive distributions on the
bins that end in the range, which is not negative and only zero when they are equal: the first from the counts
with what lies outside added to the outermost bins, the second from the counts shared by the bins with equal values. -/
theorem C151_divergence (qb bins counts : List ℝ) (hh : Histogram bins counts) (hq : qb.length = bins.length)
    (lo hi : ℝ) (hlt : lo < hi) :
    (klHist qb bins counts lo hi = some .inf ∧ ((∀ b ∈ bins, b < lo) ∨ (∀ b ∈ bins, hi ≤ b) ∨
      (∃ i, Ends bins lo hi i) ∧ ∀ i, Ends bins lo hi i → countOf counts i = 0)) ∨
    (klHist qb bins counts lo hi = some (.fin 0) ∧ ∀ i, ¬ Ends bins lo hi i) ∨
    ∃ f l p q, (∀ i, Ends bins lo hi i ↔ f ≤ i ∧ i < l) ∧ (∃ i, Ends bins lo hi i ∧ 0 < countOf counts i) ∧
      Distribution (l - f) p ∧ Distribution (l - f) q ∧
      smooth (normalise (clippedCounts counts (slice counts f l) f l)) = some p ∧
      smooth (normalise (qbc (keptPairs qb counts f l) (slice qb f (l + 1)).dedup)) = some q ∧
      klHist qb bins counts lo hi = some (.fin (klOf p q)) ∧ 0 ≤ klOf p q ∧ (klOf p q = 0 ↔ p = q) := by
  by_cases hv : rangeValid bins lo hi = true
  · obtain ⟨f, l, hr, hfl, hl, hends⟩ := binRange_some hh hlt hv
    have hlen := hh.length
    have hlc : l ≤ counts.length := by omega
    rcases eq_or_lt_of_le hfl with he | hlt'
    · right; left
      refine ⟨?_, fun i hi => ?_⟩
      · unfold klHist
        rw [if_pos hv, hr, Option.bind_some]
        dsimp only
        rw [if_pos he]
      · have := (hends i).mp hi
        omega
    · by_cases hz : ∀ k, f ≤ k → k < l → countOf counts k = 0
      · left
        refine ⟨?_, Or.inr (Or.inr ⟨⟨f, (hends f).mpr ⟨le_refl _, hlt'⟩⟩, fun i hi => ?_⟩)⟩
        · unfold klHist
          rw [if_pos hv, hr, Option.bind_some]
          dsimp only
          rw [if_neg (by omega), if_pos ((slice_all_zero hlc).mpr hz)]
        · have := (hends i).mp hi
          exact hz i this.1 this.2
      · right; right
        push Not at hz
        obtain ⟨k, h1, h2, h3⟩ := hz
        have h4 : 0 < countOf counts k := by
          refine lt_of_le_of_ne ?_ (Ne.symm h3)
          unfold countOf
          rw [List.getD_eq_getElem?_getD, List.getElem?_eq_getElem (by omega : k < counts.length), Option.getD_some]
          exact hh.nonneg _ (List.getElem_mem _)
        obtain ⟨p, q, p1, q1, p2, q2, hk⟩ := klHist_main hh hq hlt hv hr hlt' hl ⟨k, h1, h2, h4⟩
        exact ⟨f, l, p, q, hends, ⟨k, (hends k).mpr ⟨h1, h2⟩, h4⟩, p1, q1, p2, q2, hk, klOf_distributions p1 q1⟩
  · left
    refine ⟨by unfold klHist; rw [if_neg hv], ?_⟩
    rw [rangeValid_iff] at hv
    by_cases h1 : ∃ b ∈ bins, lo ≤ b
    · right; left
      intro b hb
      by_contra hn
      exact hv ⟨h1, b, hb, not_le.mp hn⟩
    · left
      intro b hb
      by_contra hn
      exact h1 ⟨b, hb, not_lt.mp hn⟩

/-- The part of the counts outside the range is not lost. -/
theorem C151_mass (counts : List ℝ) (f l : ℕ) (hfl : f < l) (hl : l ≤ counts.length) (h0 : ∀ c ∈ counts, 0 ≤ c) :
    (clippedCounts counts (slice counts f l) f l).sum = counts.sum := (clipped_good h0 hfl hl).2.1

/-- No range has a smaller error than one in which no bin ends, or only one that is not empty: its error is zero,
whatever it clips. -/
theorem C151_narrow_violated (qb bins counts : List ℝ) (hh : Histogram bins counts) (hq : qb.length = bins.length)
    (lo hi : ℝ) (hlt : lo < hi) (h1 : ∃ b ∈ bins, lo ≤ b) (h2 : ∃ b ∈ bins, b < hi)
    (hone : ∀ i j, Ends bins lo hi i → Ends bins lo hi j → i = j)
    (hpos : ∀ i, Ends bins lo hi i → 0 < countOf counts i) :
    klHist qb bins counts lo hi = some (.fin 0) ∧
    ∀ (qb' : List ℝ) (lo' hi' : ℝ) (x : Loss ℝ), qb'.length = bins.length → lo' < hi' →
      klHist qb' bins counts lo' hi' = some x → x.lt (.fin 0) = false := by
  constructor
  · rcases C151_divergence qb bins counts hh hq lo hi hlt with ⟨-, h⟩ | ⟨h, -⟩ | ⟨f, l, p, q, he, ⟨i, hi, -⟩, hp, hq, -, -, hk, -⟩
    · rcases h with h | h | ⟨⟨i, hi⟩, h⟩
      · obtain ⟨b, hb, hb'⟩ := h1; exact absurd (h b hb) (not_lt.mpr hb')
      · obtain ⟨b, hb, hb'⟩ := h2; exact absurd (h b hb) (not_le.mpr hb')
      · exact absurd (h i hi) (hpos i hi).ne'
    · exact h
    · have hi' := (he i).mp hi
      have hl1 : l - f = 1 := by
        by_contra hn
        have := hone f (f + 1) ((he f).mpr (by omega)) ((he (f + 1)).mpr (by omega))
        omega
      rw [hl1] at hp hq
      have single : ∀ {r : List ℝ}, Distribution 1 r → r = [1] := by
        intro r hr
        obtain ⟨x, rfl⟩ := List.length_eq_one_iff.mp hr.length
        have := hr.sum
        simp at this
        rw [this]
      rw [hk, single hp, single hq, klOf_self _ (by simp)]
  · intro qb' lo' hi' x hq' hlt' hx
    rcases C151_divergence qb' bins counts hh hq' lo' hi' hlt' with ⟨h, -⟩ | ⟨h, -⟩ | ⟨f, l, p, q, -, -, -, -, -, -, h, h0, -⟩
    · rw [h] at hx; cases hx; rfl
    · rw [h] at hx; cases hx; simp [Loss.lt]
    · rw [h] at hx; cases hx; simpa [Loss.lt] using h0

/-! ### Exact quantization -/

theorem filter_unique {pairs : List (ℝ × ℝ)} (hn : (pairs.map (·.1)).Nodup) {p : ℝ × ℝ} (hp : p ∈ pairs) :
    (pairs.filter fun x => decide (x.1 = p.1)) = [p] := by
  induction pairs with
  | nil => cases hp
  | cons a pairs ih =>
    rw [List.map_cons, List.nodup_cons] at hn
    rcases List.mem_cons.mp hp with rfl | hp
    · rw [List.filter_cons, if_pos (by simp), List.filter_eq_nil_iff.mpr]
      intro x hx
      simp only [decide_eq_true_eq]
      intro e
      exact hn.1 (e ▸ List.mem_map.mpr ⟨x, hx, rfl⟩)
    · have hne : ¬ a.1 = p.1 := fun e => hn.1 (e ▸ List.mem_map.mpr ⟨p, hp, rfl⟩)
      rw [List.filter_cons, if_neg (by simpa using hne), ih hn.2 hp]

theorem qbc_unique {pairs : List (ℝ × ℝ)} {vs : List ℝ} (hv : ∀ p ∈ pairs, p.1 ∈ vs)
    (hn : (pairs.map (·.1)).Nodup) (h0 : ∀ p ∈ pairs, 0 ≤ p.2) :
    qbc pairs vs = (pairs.map (·.2)).map fun c => c * (1 + 1 / 1000000)⁻¹ := by
  rw [qbc_map hv, List.map_map]
  refine List.map_congr_left fun p hp => ?_
  unfold sumRelative
  rw [filter_unique hn hp]
  by_cases h : 0 < p.2
  · simp [h, div_eq_mul_inv]
  · have : p.2 = 0 := le_antisymm (not_lt.mp h) (h0 p hp)
    simp [this]

theorem normalise_scale (l : List ℝ) {k : ℝ} (hk : k ≠ 0) : normalise (l.map fun c => c * k) = normalise l := by
  unfold normalise
  rw [List.sum_map_mul_right, List.map_map]
  simp only [List.map_id']
  refine List.map_congr_left fun c _ => ?_
  simp only [Function.comp_apply]
  exact mul_div_mul_right _ _ hk

theorem addHead_zero (l : List ℝ) : addHead 0 l = l := by cases l <;> simp [addHead]

theorem addLast_zero (l : List ℝ) : addLast 0 l = l := by
  induction l with
  | nil => rfl
  | cons y ys ih =>
    cases ys with
    | nil => simp [addLast]
    | cons z zs => rw [show addLast 0 (y :: z :: zs) = y :: addLast 0 (z :: zs) from rfl, ih]

theorem smooth_pos {p : List ℝ} (hne : p ≠ []) (h : ∀ x ∈ p, 0 < x) : smooth p = some p := by
  have hf : (p.filter fun x => decide (x ≠ 0)) = p :=
    List.filter_eq_self.mpr fun x hx => by simpa using (h x hx).ne'
  obtain ⟨m, hm, hmm, -⟩ := npMin_spec hne
  have hlen : (0 : ℝ) < p.length := by exact_mod_cast List.length_pos_of_ne_nil hne
  have hε : 0 < m / (2 * p.length) := div_pos (h m hmm) (by positivity)
  unfold smooth
  rw [hf, hm, Option.bind_some]
  dsimp only
  have hmap : (p.map fun x => if x = 0 then x + m / (2 * p.length)
      else x + -(m / (2 * p.length) * ((p.length : ℝ) - p.length) / p.length)) = p := by
    refine (List.map_congr_left fun x hx => ?_).trans (List.map_id p)
    rw [if_neg (h x hx).ne']; simp
  rw [hmap, if_neg (not_le.mpr hε), if_neg]
  rw [Bool.not_eq_true, List.any_eq_false]
  intro y hy
  simpa using h y hy

theorem keptPairs_fst {qb counts : List ℝ} {f l : ℕ} (hq : qb.length = counts.length + 1)
    (hl : l ≤ counts.length) : (keptPairs qb counts f l).map (·.1) = slice qb f l := by
  unfold keptPairs
  exact List.map_fst_zip (by rw [slice_length _ _ _ hl, slice_length _ _ _ (by omega)])

theorem slice_nodup {l : List ℝ} (h : l.dropLast.Nodup) {f k : ℕ} (hk : k < l.length) : (slice l f k).Nodup := by
  unfold slice
  have : l.take k = l.dropLast.take k := by rw [List.dropLast_eq_take, List.take_take, min_eq_left (by omega)]
  rw [this]
  exact (h.sublist (List.take_sublist _ _)).sublist (List.drop_sublist _ _)

/-- A range with all edges inside, whose quantized left edges are all different, has error zero. -/
theorem C151_exact (qb bins counts : List ℝ) (hh : Histogram bins counts) (hq : qb.length = bins.length)
    (hd : qb.dropLast.Nodup) (hs : 0 < counts.sum) (lo hi : ℝ) (hlo : ∀ b ∈ bins, lo ≤ b) (hhi : ∀ b ∈ bins, b < hi) :
    klHist qb bins counts lo hi = some (.fin 0) := by
  have hlen := hh.length
  have hcl : 0 < counts.length := by
    rcases Nat.eq_zero_or_pos counts.length with h | h
    · rw [List.length_eq_zero_iff.mp h] at hs; simp at hs
    · exact h
  have hends : ∀ i, Ends bins lo hi i ↔ i < counts.length := by
    intro i
    constructor
    · intro h; have := h.1; omega
    · intro h
      have hi' : i + 1 < bins.length := by omega
      have hm : bins.getD (i + 1) 0 ∈ bins := by
        rw [List.getD_eq_getElem?_getD, List.getElem?_eq_getElem hi']; exact List.getElem_mem _
      exact ⟨hi', hlo _ hm, hhi _ hm⟩
  obtain ⟨b, hb⟩ : ∃ b, b ∈ bins := List.exists_mem_of_length_pos (by omega)
  have hlt : lo < hi := lt_of_le_of_lt (hlo b hb) (hhi b hb)
  rcases C151_divergence qb bins counts hh hq lo hi hlt with ⟨-, h⟩ | ⟨-, h⟩ | ⟨f, l, p, q, he, -, p1, q1, hp, hqq, hk, -⟩
  · rcases h with h | h | ⟨-, h⟩
    · exact absurd (h b hb) (not_lt.mpr (hlo b hb))
    · exact absurd (h b hb) (not_le.mpr (hhi b hb))
    · have : counts.sum = 0 := by
        refine List.sum_eq_zero fun c hc => ?_
        obtain ⟨i, hi, rfl⟩ := List.mem_iff_getElem.mp hc
        have := h i ((hends i).mpr hi)
        rwa [countOf, List.getD_eq_getElem?_getD, List.getElem?_eq_getElem hi] at this
      rw [this] at hs; exact absurd hs (lt_irrefl _)
  · exact absurd ((hends 0).mpr hcl) (h 0)
  · have hf : f = 0 := by
      have := ((he 0).mp ((hends 0).mpr hcl)).1
      omega
    have hl : l = counts.length := by
      have h1 := ((he (counts.length - 1)).mp ((hends _).mpr (by omega))).2
      by_contra hn
      have := (hends _).mp ((he counts.length).mpr ⟨by omega, by omega⟩)
      omega
    subst hf hl
    have hsl : slice counts 0 counts.length = counts := by simp [slice]
    have hcc : clippedCounts counts (slice counts 0 counts.length) 0 counts.length = counts := by
      unfold clippedCounts
      rw [hsl]
      simp [addHead_zero, addLast_zero]
    have hsnd := keptPairs_snd (qb := qb) (f := 0) (by omega) (le_refl counts.length)
    rw [hcc] at hp
    rw [qbc_unique (keptPairs_mem (by omega)) (by
        rw [keptPairs_fst (by omega) (le_refl _)]; exact slice_nodup hd (by omega)) (by
        intro x hx
        refine hh.nonneg _ (slice_mem (i := 0) (j := counts.length) ?_)
        rw [← hsnd]; exact List.mem_map.mpr ⟨x, hx, rfl⟩),
      normalise_scale _ (by positivity), hsnd, hsl, hp, Option.some.injEq] at hqq
    rw [hk, ← hqq, klOf_self _ p1.pos]

/-- The full range of the data has a positive error although the quantization is exact: the last bin, which ends at
the end of the range, counts as clipped.  For every histogram of three or more bins of which none is empty. -/
theorem C151_last_bin_violated (qb bins counts : List ℝ) (hh : Histogram bins counts) (hq : qb.length = bins.length)
    (hd : qb.dropLast.Nodup) (h3 : 3 ≤ counts.length) (hpos : ∀ c ∈ counts, 0 < c) (lo hi : ℝ)
    (hlo : bins.head? = some lo) (hhi : bins.getLast? = some hi) :
    ∃ x, klHist qb bins counts lo hi = some (.fin x) ∧ 0 < x := by
  have hlen := hh.length
  have hget : ∀ i (hi : i < bins.length), bins.getD i 0 = bins[i] := fun i hi => by
    rw [List.getD_eq_getElem?_getD, List.getElem?_eq_getElem hi, Option.getD_some]
  have hlo' : lo = bins[0]'(by omega) := by
    rw [List.head?_eq_getElem?, List.getElem?_eq_getElem (by omega)] at hlo
    exact (Option.some.inj hlo).symm
  have hhi' : hi = bins[counts.length]'(by omega) := by
    rw [List.getLast?_eq_getElem?, List.getElem?_eq_getElem (by omega)] at hhi
    rw [← Option.some.inj hhi]
    congr 1
    omega
  have hsort := List.pairwise_iff_getElem.mp hh.sorted
  have hlt : lo < hi := by rw [hlo', hhi']; exact hsort 0 counts.length (by omega) (by omega) (by omega)
  have hends : ∀ i, Ends bins lo hi i ↔ i + 1 < counts.length := by
    intro i
    constructor
    · rintro ⟨h1, -, h2⟩
      by_contra hn
      have : i + 1 = counts.length := by omega
      rw [hget _ h1, hhi'] at h2
      simp only [this] at h2
      exact lt_irrefl _ h2
    · intro h
      refine ⟨by omega, ?_, ?_⟩
      · rw [hget _ (by omega), hlo']; exact (hsort 0 (i + 1) (by omega) (by omega) (by omega)).le
      · rw [hget _ (by omega), hhi']; exact hsort (i + 1) counts.length (by omega) (by omega) (by omega)
  rcases C151_divergence qb bins counts hh hq lo hi hlt with ⟨-, h⟩ | ⟨-, h⟩ | ⟨f, l, p, q, he, -, p1, q1, hp, hqq, hk, h0, hiff⟩
  · rcases h with h | h | ⟨-, h⟩
    · exact absurd (h lo (hlo' ▸ List.getElem_mem _)) (lt_irrefl _)
    · exact absurd (h lo (hlo' ▸ List.getElem_mem _)) (not_le.mpr hlt)
    · have := h 0 ((hends 0).mpr (by omega))
      rw [countOf, List.getD_eq_getElem?_getD, List.getElem?_eq_getElem (by omega : 0 < counts.length)] at this
      exact absurd this (hpos _ (List.getElem_mem _)).ne'
  · exact absurd ((hends 0).mpr (by omega)) (h 0)
  · refine ⟨_, hk, lt_of_le_of_ne h0 fun e => ?_⟩
    have hpq : p = q := hiff.mp e.symm
    have hf : f = 0 := by
      have := ((he 0).mp ((hends 0).mpr (by omega))).1
      omega
    have hl : l = counts.length - 1 := by
      have h1 := ((he (counts.length - 2)).mp ((hends _).mpr (by omega))).2
      by_contra hn
      have := (hends _).mp ((he (counts.length - 1)).mpr ⟨by omega, by omega⟩)
      omega
    subst hf hl
    obtain ⟨c0, c1, rest, hc⟩ : ∃ c0 c1 rest, counts = c0 :: c1 :: rest := by
      match counts, h3 with
      | c0 :: c1 :: rest, _ => exact ⟨c0, c1, rest, rfl⟩
    have hcne : counts ≠ [] := by rw [hc]; simp
    have hsl : slice counts 0 (counts.length - 1) = counts.dropLast := by
      simp [slice, List.dropLast_eq_take]
    have hdl : counts.dropLast = c0 :: (c1 :: rest).dropLast := by rw [hc]; rfl
    have hrest : (c1 :: rest).dropLast ≠ [] := by
      rw [ne_eq, ← List.length_eq_zero_iff, List.length_dropLast]
      have h3' : 3 ≤ (c0 :: c1 :: rest).length := hc ▸ h3
      simp only [List.length_cons] at h3' ⊢
      omega
    have hdrop : (counts.drop (counts.length - 1)).sum = counts.getLast hcne := by
      rw [List.drop_length_sub_one hcne]; simp
    have hsplit : counts.dropLast.sum + counts.getLast hcne = counts.sum := by
      conv_rhs => rw [← List.dropLast_append_getLast hcne]
      rw [List.sum_append]; simp
    have hlast : 0 < counts.getLast hcne := hpos _ (List.getLast_mem _)
    have hc0 : 0 < c0 := hpos c0 (by rw [hc]; simp)
    have hdpos : ∀ x ∈ counts.dropLast, 0 < x := fun x hx => hpos x (List.dropLast_subset _ hx)
    have hdsum : 0 < counts.dropLast.sum := by
      refine lt_of_lt_of_le hc0 (List.single_le_sum (fun x hx => (hdpos x hx).le) _ ?_)
      rw [hdl]; simp
    -- the distribution of the data
    obtain ⟨y, ys, hys⟩ := List.exists_cons_of_ne_nil hrest
    have hclip : clippedCounts counts (slice counts 0 (counts.length - 1)) 0 (counts.length - 1) =
        c0 :: addLast (counts.getLast hcne) (y :: ys) := by
      unfold clippedCounts
      rw [hsl, hdrop, List.take_zero, List.sum_nil, addHead_zero, hdl, hys]
      rfl
    have hcsum := (clipped_good hh.nonneg (by omega : 0 < counts.length - 1) (by omega)).2.1
    have hcpos : ∀ x ∈ clippedCounts counts (slice counts 0 (counts.length - 1)) 0 (counts.length - 1), 0 < x := by
      rw [hclip, List.forall_mem_cons]
      refine ⟨hc0, ?_⟩
      have hyp : ∀ x ∈ y :: ys, 0 < x := fun x hx => hdpos x (by rw [hdl, hys]; exact List.mem_cons_of_mem _ hx)
      clear * - hyp hlast
      generalize counts.getLast hcne = t at hlast
      generalize y :: ys = m at hyp
      induction m with
      | nil => simp [addLast]
      | cons z zs ih =>
        cases zs with
        | nil =>
          simp only [addLast, List.mem_singleton, forall_eq] at hyp ⊢
          linarith
        | cons w ws =>
          rw [List.forall_mem_cons] at hyp
          rw [show addLast t (z :: w :: ws) = z :: addLast t (w :: ws) from rfl, List.forall_mem_cons]
          exact ⟨hyp.1, ih hyp.2⟩
    have hnp : ∀ {m : List ℝ}, m ≠ [] → (∀ x ∈ m, 0 < x) → 0 < m.sum → smooth (normalise m) = some (normalise m) := by
      intro m hm hx hsum
      refine smooth_pos (by simpa [normalise] using hm) fun z hz => ?_
      obtain ⟨x, hx', rfl⟩ := List.mem_map.mp hz
      exact div_pos (hx x hx') hsum
    rw [hnp (by rw [hclip]; simp) hcpos (by rw [hcsum, ← hsplit]; linarith), Option.some.injEq] at hp
    -- the distribution of the quantized data
    have hsnd := keptPairs_snd (qb := qb) (f := 0) (by omega) (by omega : counts.length - 1 ≤ counts.length)
    rw [qbc_unique (keptPairs_mem (by omega)) (by
        rw [keptPairs_fst (by omega) (by omega)]; exact slice_nodup hd (by omega)) (by
        intro x hx
        refine hh.nonneg _ (slice_mem (i := 0) (j := counts.length - 1) ?_)
        rw [← hsnd]; exact List.mem_map.mpr ⟨x, hx, rfl⟩),
      normalise_scale _ (by positivity), hsnd, hsl,
      hnp (by rw [hdl]; simp) hdpos hdsum, Option.some.injEq] at hqq
    have heads : (normalise (clippedCounts counts (slice counts 0 (counts.length - 1)) 0 (counts.length - 1))).head? =
        (normalise counts.dropLast).head? := by rw [hp, hqq, hpq]
    have e1 : (normalise (clippedCounts counts (slice counts 0 (counts.length - 1)) 0 (counts.length - 1))).head? =
        some (c0 / counts.sum) := by
      unfold normalise
      rw [hcsum, hclip]; rfl
    have e2 : (normalise counts.dropLast).head? = some (c0 / counts.dropLast.sum) := by
      unfold normalise
      generalize counts.dropLast.sum = t
      rw [hdl]; rfl
    rw [e1, e2, Option.some.injEq, ← hsplit, div_eq_div_iff (by linarith) hdsum.ne'] at heads
    nlinarith [mul_pos hc0 hlast]

/-! ### What the error depends on -/

theorem slice_map (g : ℝ → ℝ) (l : List ℝ) (i j : ℕ) : slice (l.map g) i j = (slice l i j).map g := by
  unfold slice
  rw [← List.map_take, ← List.map_drop]

theorem binRange_le {bins : List ℝ} {lo hi : ℝ} {r : ℕ × ℕ} (h : binRange bins lo hi = some r) : r.1 ≤ r.2 := by
  unfold binRange at h
  split at h
  · obtain ⟨a, -, h⟩ := Option.bind_eq_some_iff.mp h
    obtain ⟨b, -, h⟩ := Option.bind_eq_some_iff.mp h
    split at h
    · cases h; assumption
    · cases h
  · cases h

theorem sumRelative_map {g : ℝ → ℝ} (hg : Function.Injective g) (pairs : List (ℝ × ℝ)) (v : ℝ) :
    sumRelative (pairs.map fun p => (g p.1, p.2)) (g v) = sumRelative pairs v := by
  have hf : ((pairs.map fun p => (g p.1, p.2)).filter fun x => decide (x.1 = g v)) =
      (pairs.filter fun x => decide (x.1 = v)).map fun p => (g p.1, p.2) := by
    rw [List.filter_map]
    congr 1
    refine List.filter_congr fun x _ => ?_
    rw [Function.comp_apply]
    exact decide_eq_decide.mpr hg.eq_iff
  unfold sumRelative
  rw [hf, List.map_map, List.filter_map, List.length_map]
  simp only [Function.comp_def]

theorem zip_map_fst (g : ℝ → ℝ) (l m : List ℝ) : (l.map g).zip m = (l.zip m).map fun p => (g p.1, p.2) := by
  induction l generalizing m with
  | nil => rfl
  | cons a l ih =>
    cases m with
    | nil => rfl
    | cons b m => simp [ih]

/-- The error depends on which edges are quantized to the same value and not on these values. -/
theorem C151_values (qb bins counts : List ℝ) (lo hi : ℝ) (g : ℝ → ℝ) (hg : Function.Injective g) :
    klHist (qb.map g) bins counts lo hi = klHist qb bins counts lo hi := by
  unfold klHist
  split
  · cases hr : binRange bins lo hi with
    | none => simp only [Option.bind_none]
    | some r =>
      simp only [Option.bind_some]
      have key : qbc ((slice (qb.map g) r.1 r.2).zip (slice counts r.1 r.2)) (slice (qb.map g) r.1 (r.2 + 1)).dedup =
          qbc ((slice qb r.1 r.2).zip (slice counts r.1 r.2)) (slice qb r.1 (r.2 + 1)).dedup := by
        have e1 := qbc_map (keptPairs_mem (qb := qb) (counts := counts) (binRange_le hr))
        have e2 := qbc_map (keptPairs_mem (qb := qb.map g) (counts := counts) (binRange_le hr))
        unfold keptPairs at e1 e2
        rw [e1, e2]
        have hz : (slice (qb.map g) r.1 r.2).zip (slice counts r.1 r.2) =
            ((slice qb r.1 r.2).zip (slice counts r.1 r.2)).map fun p => (g p.1, p.2) := by
          rw [slice_map]; exact zip_map_fst g _ _
        rw [hz, List.map_map]
        refine List.map_congr_left fun p _ => ?_
        simp only [Function.comp_apply]
        rw [sumRelative_map hg]
      rw [key]
  · rfl

theorem sum_scale (l : List ℝ) (k : ℝ) : (l.map fun c => c * k).sum = l.sum * k := by
  rw [List.sum_map_mul_right]; simp

theorem addHead_scale (x k : ℝ) (l : List ℝ) :
    addHead (x * k) (l.map fun c => c * k) = (addHead x l).map fun c => c * k := by
  cases l with
  | nil => rfl
  | cons y ys => simp [addHead, add_mul]

theorem addLast_scale (x k : ℝ) (l : List ℝ) :
    addLast (x * k) (l.map fun c => c * k) = (addLast x l).map fun c => c * k := by
  induction l with
  | nil => rfl
  | cons y ys ih =>
    cases ys with
    | nil => simp [addLast, add_mul]
    | cons z zs =>
      rw [show addLast x (y :: z :: zs) = y :: addLast x (z :: zs) from rfl, List.map_cons, List.map_cons (l := addLast x (z :: zs)), ← ih]
      rfl

/-- The error depends on the shares of the bins and not on the number of samples. -/
theorem C151_shares (qb bins counts : List ℝ) (lo hi k : ℝ) (hk : 0 < k) :
    klHist qb bins (counts.map fun c => c * k) lo hi = klHist qb bins counts lo hi := by
  unfold klHist
  split
  · cases hr : binRange bins lo hi with
    | none => simp only [Option.bind_none]
    | some r =>
      simp only [Option.bind_some]
      have hall : ((slice (counts.map fun c => c * k) r.1 r.2).all fun c => decide (c = 0)) =
          (slice counts r.1 r.2).all fun c => decide (c = 0) := by
        rw [slice_map, List.all_map]
        congr 1
        funext c
        simp [hk.ne']
      have hclip : normalise (clippedCounts (counts.map fun c => c * k) (slice (counts.map fun c => c * k) r.1 r.2)
          r.1 r.2) = normalise (clippedCounts counts (slice counts r.1 r.2) r.1 r.2) := by
        unfold clippedCounts
        rw [slice_map, ← List.map_take, ← List.map_drop, sum_scale, sum_scale, addHead_scale, addLast_scale,
          normalise_scale _ hk.ne']
      have hq : normalise (qbc ((slice qb r.1 r.2).zip (slice (counts.map fun c => c * k) r.1 r.2))
          (slice qb r.1 (r.2 + 1)).dedup) =
          normalise (qbc ((slice qb r.1 r.2).zip (slice counts r.1 r.2)) (slice qb r.1 (r.2 + 1)).dedup) := by
        have e1 := qbc_map (keptPairs_mem (qb := qb) (counts := counts) (binRange_le hr))
        have e2 := qbc_map (keptPairs_mem (qb := qb) (counts := counts.map fun c => c * k) (binRange_le hr))
        unfold keptPairs at e1 e2
        rw [e1, e2]
        have hz : (slice qb r.1 r.2).zip (slice (counts.map fun c => c * k) r.1 r.2) =
            ((slice qb r.1 r.2).zip (slice counts r.1 r.2)).map fun p => (p.1, p.2 * k) := by
          rw [slice_map, List.zip_map_right]
          rfl
        rw [hz, List.map_map]
        generalize (slice qb r.1 r.2).zip (slice counts r.1 r.2) = pairs
        rw [← normalise_scale (pairs.map fun p => sumRelative pairs p.1 * (if 0 < p.2 then 1 else 0)) hk.ne',
          List.map_map]
        congr 1
        refine List.map_congr_left fun p _ => ?_
        simp only [Function.comp_apply, mul_pos_iff_of_pos_right hk]
        have hsr : sumRelative (pairs.map fun p => (p.1, p.2 * k)) p.1 = sumRelative pairs p.1 * k := by
          unfold sumRelative
          rw [List.filter_map, List.map_map, List.filter_map, List.length_map]
          have e3 : ((fun x : ℝ × ℝ => decide (0 < x.2)) ∘ fun p : ℝ × ℝ => (p.1, p.2 * k)) =
              fun x => decide (0 < x.2) := by
            funext x; simp only [Function.comp_apply, mul_pos_iff_of_pos_right hk]
          have e4 : ((fun x : ℝ × ℝ => decide (x.1 = p.1)) ∘ fun p : ℝ × ℝ => (p.1, p.2 * k)) =
              fun x => decide (x.1 = p.1) := rfl
          rw [e3, e4]
          have e5 : ((pairs.filter fun x => decide (x.1 = p.1)).map ((fun x : ℝ × ℝ => x.2) ∘ fun p => (p.1, p.2 * k))) =
              ((pairs.filter fun x => decide (x.1 = p.1)).map (·.2)).map fun c => c * k := by
            rw [List.map_map]; rfl
          rw [e5, sum_scale]
          ring
        rw [hsr]
        ring
      rw [hall, hq, hclip]
  · rfl

/-! ### The other errors -/

theorem powErr_aux (p : ℕ) (hp : 1 ≤ p) (qb bins counts : List ℝ) (h0 : ∀ c ∈ counts, 0 ≤ c)
    (h1 : counts.length ≤ qb.length) (h2 : counts.length ≤ bins.length) :
    0 ≤ (List.zipWith (fun d c => d * c) (List.zipWith (fun q b => |q - b| ^ p) qb bins) counts).sum ∧
    ((List.zipWith (fun d c => d * c) (List.zipWith (fun q b => |q - b| ^ p) qb bins) counts).sum = 0 ↔
      ∀ i, i < counts.length → countOf counts i ≠ 0 → qb.getD i 0 = bins.getD i 0) := by
  induction counts generalizing qb bins with
  | nil => simp
  | cons c counts ih =>
    cases qb with
    | nil => simp at h1
    | cons q qb =>
      cases bins with
      | nil => simp at h2
      | cons b bins =>
        obtain ⟨i1, i2⟩ := ih qb bins (fun x hx => h0 x (by simp [hx])) (by simpa using h1) (by simpa using h2)
        have hc := h0 c (by simp)
        simp only [List.zipWith_cons_cons, List.sum_cons]
        have ht : 0 ≤ |q - b| ^ p * c := mul_nonneg (pow_nonneg (abs_nonneg _) _) hc
        refine ⟨add_nonneg ht i1, ?_⟩
        rw [add_eq_zero_iff_of_nonneg ht i1, i2]
        have hz : |q - b| ^ p * c = 0 ↔ (c ≠ 0 → q = b) := by
          rw [mul_eq_zero, pow_eq_zero_iff (by omega), abs_eq_zero, sub_eq_zero]
          tauto
        rw [hz]
        constructor
        · rintro ⟨e1, e2⟩ i hi hne
          cases i with
          | zero => exact e1 hne
          | succ i => exact e2 i (by simpa using hi) hne
        · intro h
          exact ⟨fun hne => h 0 (by simp) hne, fun i hi hne => h (i + 1) (by simpa using hi) hne⟩

/-- The other errors are not negative, and zero exactly when the left edges of all bins with samples are unchanged. -/
theorem C151_powers (p : ℕ) (hp : 1 ≤ p) (qb bins counts : List ℝ) (hh : Histogram bins counts)
    (hq : qb.length = bins.length) (hs : 0 < counts.sum) :
    0 ≤ powErrHist p qb bins counts ∧
    (powErrHist p qb bins counts = 0 ↔
      ∀ i, i < counts.length → countOf counts i ≠ 0 → qb.getD i 0 = bins.getD i 0) := by
  have hlen := hh.length
  obtain ⟨h1, h2⟩ := powErr_aux p hp qb bins counts hh.nonneg (by omega) (by omega)
  unfold powErrHist
  refine ⟨div_nonneg h1 hs.le, ?_⟩
  rw [div_eq_zero_iff, h2]
  exact ⟨fun h => h.resolve_right hs.ne', Or.inl⟩

/-- A histogram of four bins, used by the theorems above: the range up to the first inner edge has error zero, like
an exact one beyond the last edge, and that of the data has a positive one. -/
example : let bins : List ℝ := [0, 1, 2, 3, 4]
    let counts : List ℝ := [1, 2, 3, 4]
    Histogram bins counts ∧
    klHist [0, 1, 1, 1, 1] bins counts 0 (3 / 2) = some (.fin 0) ∧
    klHist bins bins counts 0 5 = some (.fin 0) ∧
    ∃ x, klHist bins bins counts 0 4 = some (.fin x) ∧ 0 < x := by
  intro bins counts
  have hh : Histogram bins counts := by
    refine ⟨?_, rfl, ?_⟩
    · simp [bins]; norm_num
    · simp [counts]
  refine ⟨hh, ?_, ?_, ?_⟩
  · refine (C151_narrow_violated [0, 1, 1, 1, 1] bins counts hh rfl 0 (3 / 2) (by norm_num) ⟨0, by simp [bins], le_refl _⟩
      ⟨0, by simp [bins], by norm_num⟩ ?_ ?_).1
    · have key : ∀ i, Ends bins 0 (3 / 2) i → i = 0 := by
        rintro i ⟨h1, -, h3⟩
        have hi : i < 4 := by simp [bins] at h1; omega
        interval_cases i <;> simp [bins] at h3 ⊢ <;> norm_num at h3
      intro i j hi hj
      rw [key i hi, key j hj]
    · rintro i ⟨h1, -, h3⟩
      have hi : i < 4 := by simp [bins] at h1; omega
      interval_cases i <;> simp [counts, countOf]
  · refine C151_exact bins bins counts hh rfl ?_ ?_ 0 5 ?_ ?_
    · simp [bins]
    · simp [counts]; norm_num
    · simp [bins]
    · simp [bins]; norm_num
  · refine C151_last_bin_violated bins bins counts hh rfl ?_ (by simp [counts]) ?_ 0 4 rfl rfl
    · simp [bins]
    · simp [counts]

end MCT.Search
