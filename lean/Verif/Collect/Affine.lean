import Verif.Collect.Lemmas

set_option linter.unusedSectionVars false

/-!
# Histograms of affinely transformed data
-/

namespace MCT.Collect

open MCT.Quant MCT.Search MCT.CollectSpec

variable {K : Type*} [Field K] [LinearOrder K] [IsStrictOrderedRing K] [FloorRing K]

/-- An increasing affine map. -/
def aff (a b x : K) : K := x * a + b

theorem aff_le {a b x y : K} (ha : 0 < a) : aff a b x ≤ aff a b y ↔ x ≤ y := by
  unfold aff; constructor
  · intro h; by_contra hc; push Not at hc
    have := mul_lt_mul_of_pos_right hc ha; linarith
  · intro h; have := mul_le_mul_of_nonneg_right h ha.le; linarith

theorem aff_lt {a b x y : K} (ha : 0 < a) : aff a b x < aff a b y ↔ x < y := by
  rw [← not_le, ← not_le, aff_le ha]

theorem aff_inj {a b x y : K} (ha : 0 < a) : aff a b x = aff a b y ↔ x = y := by
  constructor
  · intro h; exact le_antisymm ((aff_le ha).mp h.le) ((aff_le ha).mp h.ge)
  · rintro rfl; rfl

theorem foldl_min_aff {a b : K} (ha : 0 < a) (xs : List K) (x : K) :
    (xs.map (aff a b)).foldl min (aff a b x) = aff a b (xs.foldl min x) := by
  induction xs generalizing x with
  | nil => rfl
  | cons y ys ih =>
    have : min (aff a b x) (aff a b y) = aff a b (min x y) := by
      rcases le_total x y with h | h
      · rw [min_eq_left h, min_eq_left ((aff_le ha).mpr h)]
      · rw [min_eq_right h, min_eq_right ((aff_le ha).mpr h)]
    simp only [List.map_cons, List.foldl_cons, this, ih]

theorem foldl_max_aff {a b : K} (ha : 0 < a) (xs : List K) (x : K) :
    (xs.map (aff a b)).foldl max (aff a b x) = aff a b (xs.foldl max x) := by
  induction xs generalizing x with
  | nil => rfl
  | cons y ys ih =>
    have : max (aff a b x) (aff a b y) = aff a b (max x y) := by
      rcases le_total x y with h | h
      · rw [max_eq_right h, max_eq_right ((aff_le ha).mpr h)]
      · rw [max_eq_left h, max_eq_left ((aff_le ha).mpr h)]
    simp only [List.map_cons, List.foldl_cons, this, ih]

theorem npMin_aff {a b : K} (ha : 0 < a) (xs : List K) :
    npMin (xs.map (aff a b)) = (npMin xs).map (aff a b) := by
  cases xs with
  | nil => rfl
  | cons x xs => simp [npMin, foldl_min_aff ha]

theorem npMax_aff {a b : K} (ha : 0 < a) (xs : List K) :
    npMax (xs.map (aff a b)) = (npMax xs).map (aff a b) := by
  cases xs with
  | nil => rfl
  | cons x xs => simp [npMax, foldl_max_aff ha]

theorem linspaceL_aff (a b lo hi : K) (k : ℕ) :
    linspaceL (aff a b lo) (aff a b hi) k = (linspaceL lo hi k).map (aff a b) := by
  simp only [linspaceL, List.map_map]
  apply List.map_congr_left
  intro i _
  simp only [Function.comp, aff]; ring

theorem interp_aff {a b : K} (ha : 0 < a) (x : K) (ps : List (K × K)) :
    interp (aff a b x) (ps.map fun p => (aff a b p.1, p.2)) = interp x ps := by
  induction ps with
  | nil => rfl
  | cons p rest ih =>
    cases rest with
    | nil => rfl
    | cons q rest =>
      simp only [List.map_cons] at ih ⊢
      simp only [interp, aff_le ha]
      have : (aff a b x - aff a b p.1) / (aff a b q.1 - aff a b p.1) =
          (x - p.1) / (q.1 - p.1) := by
        have h1 : aff a b x - aff a b p.1 = (x - p.1) * a := by unfold aff; ring
        have h2 : aff a b q.1 - aff a b p.1 = (q.1 - p.1) * a := by unfold aff; ring
        rw [h1, h2, mul_div_mul_right _ _ ha.ne']
      rw [this, ih]

theorem interpolateHistogram_aff {a b : K} (ha : 0 < a) (mb bins counts : List K) :
    interpolateHistogram (mb.map (aff a b)) (bins.map (aff a b)) counts =
      interpolateHistogram mb bins counts := by
  unfold interpolateHistogram
  rw [List.map_map]
  congr 1
  apply List.map_congr_left
  intro x _
  have : (bins.map (aff a b)).zip (cumsum0 0 counts) =
      (bins.zip (cumsum0 0 counts)).map fun p => (aff a b p.1, p.2) := by
    rw [List.zip_map_left]; rfl
  simp only [Function.comp, this, interp_aff ha]

theorem merge_aff {a b : K} (ha : 0 < a) (n : ℕ) (hs : List (List K × List K)) :
    mergeHistograms n (hs.map fun h => (h.1, h.2.map (aff a b))) =
      (mergeHistograms n hs).map fun r => (r.1.map (aff a b), r.2) := by
  cases hs with
  | nil => rfl
  | cons h rest =>
    have hst : ((h :: rest).map fun h => (h.1, h.2.map (aff a b))).flatMap Prod.snd =
        ((h :: rest).flatMap Prod.snd).map (aff a b) := by
      rw [List.flatMap_map, List.map_flatMap]
    simp only [List.map_cons] at hst
    simp only [List.map_cons, mergeHistograms, hst, npMin_aff ha, npMax_aff ha]
    rcases npMin ((h :: rest).flatMap Prod.snd) with _ | lo
    · rfl
    rcases npMax ((h :: rest).flatMap Prod.snd) with _ | hi
    · rfl
    simp only [Option.map_some, linspaceL_aff, interpolateHistogram_aff ha]
    have : ∀ (l : List (List K × List K)) acc,
        (l.map fun h => (h.1, h.2.map (aff a b))).foldl (fun acc g => addL acc
          (interpolateHistogram ((linspaceL lo hi n).map (aff a b)) g.2 g.1)) acc =
        l.foldl (fun acc g => addL acc (interpolateHistogram (linspaceL lo hi n) g.2 g.1)) acc := by
      intro l
      induction l with
      | nil => intro acc; rfl
      | cons g l ih =>
        intro acc
        simp only [List.map_cons, List.foldl_cons, interpolateHistogram_aff ha, ih]
    rw [this]

/-- The histogram of increasingly affinely transformed data: same counts, transformed edges.
A constant batch gets the artificial edges `v ± 1/2`, which scale only for a factor of one. -/
theorem npHistogram_aff {a b : K} (ha : 0 < a) (xs : List K) (k : ℕ)
    (h : a = 1 ∨ ∃ x ∈ xs, ∃ y ∈ xs, x ≠ y) :
    npHistogram (xs.map (aff a b)) k =
      (npHistogram xs k).map fun h => (h.1, h.2.map (aff a b)) := by
  cases xs with
  | nil => rfl
  | cons x0 xs0 =>
    obtain ⟨lo, hlo, hlom, hlo'⟩ := npMin_spec (xs := x0 :: xs0) (by simp)
    obtain ⟨hi, hhi, hhim, hhi'⟩ := npMax_spec (xs := x0 :: xs0) (by simp)
    generalize x0 :: xs0 = xs at *
    simp only [npHistogram, npMin_aff ha, npMax_aff ha, hlo, hhi, Option.map_some]
    have ho : outerEdges (aff a b lo) (aff a b hi) =
        (aff a b (outerEdges lo hi).1, aff a b (outerEdges lo hi).2) := by
      unfold outerEdges
      simp only [aff_inj ha]
      rcases h with rfl | ⟨x, hx, y, hy, hxy⟩
      · split_ifs
        · simp only [aff]; ext <;> simp <;> ring
        · rfl
      · have : lo ≠ hi := by
          intro e
          apply hxy
          have h1 := hlo' x hx; have h2 := hhi' x hx
          have h3 := hlo' y hy; have h4 := hhi' y hy
          exact le_antisymm (by linarith) (by linarith)
        simp [this]
    rw [ho]
    simp only [linspaceL_aff, Option.some.injEq, Prod.mk.injEq, and_true]
    apply List.map_congr_left
    intro i _
    congr 1
    rw [List.filter_map, List.length_map]
    congr 1
    apply List.filter_congr
    intro x _
    have hed : ∀ i : ℕ, aff a b (outerEdges lo hi).1 + (i : K) *
        ((aff a b (outerEdges lo hi).2 - aff a b (outerEdges lo hi).1) / (k : K)) =
        aff a b ((outerEdges lo hi).1 + (i : K) *
          (((outerEdges lo hi).2 - (outerEdges lo hi).1) / (k : K))) := by
      intro i; unfold aff; ring
    simp only [Function.comp, inBin, hed, aff_le ha, aff_lt ha]

end MCT.Collect
