import Verif.Collect.Model
import Verif.Collect.Spec
import Verif.Search.Lemmas
import Mathlib.Tactic.FieldSimp
import Mathlib.Tactic.LinearCombination

set_option linter.unusedSectionVars false

/-!
# Helper lemmas for the collectors
-/

namespace MCT.Collect

open MCT.Quant MCT.Search MCT.CollectSpec

variable {K : Type*} [Field K] [LinearOrder K] [IsStrictOrderedRing K] [FloorRing K]

/-! ### interpolation -/

theorem interp_of_le_head (x : K) (p : K × K) (rest : List (K × K)) (h : x ≤ p.1) :
    interp x (p :: rest) = p.2 := by
  cases rest with
  | nil => rfl
  | cons q rest => simp [interp, h]

theorem interp_of_last_le (x : K) (ps : List (K × K)) (hne : ps ≠ [])
    (hs : ps.Pairwise fun p q => p.1 < q.1) (h : (ps.getLast hne).1 ≤ x) :
    interp x ps = (ps.getLast hne).2 := by
  induction ps with
  | nil => exact absurd rfl hne
  | cons p rest ih =>
    cases rest with
    | nil => rfl
    | cons q rest =>
      have hs' := (List.pairwise_cons.mp hs).2
      have hl : ((p :: q :: rest).getLast hne) = (q :: rest).getLast (by simp) := by simp
      rw [hl] at h ⊢
      have hpq : p.1 < ((q :: rest).getLast (by simp)).1 :=
        (List.pairwise_cons.mp hs).1 _ (List.getLast_mem _)
      have hqle : q.1 ≤ ((q :: rest).getLast (by simp)).1 := by
        have hm := List.getLast_mem (l := q :: rest) (by simp)
        rcases List.mem_cons.mp hm with e | hm
        · rw [e]
        · exact ((List.pairwise_cons.mp hs').1 _ hm).le
      have hxp : ¬ x ≤ p.1 := by intro h'; linarith
      simp only [interp, if_neg hxp]
      split_ifs with hxq
      · have e1 : x = q.1 := le_antisymm hxq (hqle.trans h)
        have hq0 : q.1 - p.1 ≠ 0 := by
          have := (List.pairwise_cons.mp hs).1 q (by simp); linarith
        have e2 : interp x (q :: rest) = q.2 := interp_of_le_head x q rest hxq
        rw [← ih (by simp) hs' h, e2, e1, div_self hq0]; ring
      · exact ih (by simp) hs' h

theorem head_le_interp (x : K) (p : K × K) (rest : List (K × K))
    (hs : (p :: rest).Pairwise fun p q => p.1 < q.1)
    (hm : (p :: rest).Pairwise fun p q => p.2 ≤ q.2) : p.2 ≤ interp x (p :: rest) := by
  induction rest generalizing p with
  | nil => simp [interp]
  | cons q rest ih =>
    have hs' := List.pairwise_cons.mp hs
    have hm' := List.pairwise_cons.mp hm
    have hpq := hs'.1 q (by simp)
    have hpq2 := hm'.1 q (by simp)
    simp only [interp]
    split_ifs with h1 h2
    · exact le_rfl
    · have : 0 ≤ (x - p.1) / (q.1 - p.1) * (q.2 - p.2) :=
        mul_nonneg (div_nonneg (by linarith) (by linarith)) (by linarith)
      linarith
    · exact hpq2.trans (ih q hs'.2 hm'.2)

theorem interp_mono {x y : K} (hxy : x ≤ y) (ps : List (K × K))
    (hs : ps.Pairwise fun p q => p.1 < q.1) (hm : ps.Pairwise fun p q => p.2 ≤ q.2) :
    interp x ps ≤ interp y ps := by
  induction ps with
  | nil => simp [interp]
  | cons p rest ih =>
    cases rest with
    | nil => simp [interp]
    | cons q rest =>
      have hs' := List.pairwise_cons.mp hs
      have hm' := List.pairwise_cons.mp hm
      have hpq := hs'.1 q (by simp)
      have hpq2 := hm'.1 q (by simp)
      have hd : 0 < q.1 - p.1 := by linarith
      by_cases hx1 : x ≤ p.1
      · rw [interp_of_le_head x p _ hx1]; exact head_le_interp y p _ hs hm
      · have hy1 : ¬ y ≤ p.1 := by intro h; exact hx1 (hxy.trans h)
        simp only [interp, if_neg hx1, if_neg hy1]
        by_cases hx2 : x ≤ q.1
        · rw [if_pos hx2]
          by_cases hy2 : y ≤ q.1
          · rw [if_pos hy2]
            have : (x - p.1) / (q.1 - p.1) ≤ (y - p.1) / (q.1 - p.1) :=
              div_le_div_of_nonneg_right (by linarith) hd.le
            have := mul_le_mul_of_nonneg_right this (show 0 ≤ q.2 - p.2 by linarith)
            linarith
          · rw [if_neg hy2]
            have h1 : (x - p.1) / (q.1 - p.1) ≤ 1 := by rw [div_le_one hd]; linarith
            have h2 := mul_le_mul_of_nonneg_right h1 (show 0 ≤ q.2 - p.2 by linarith)
            have h3 := head_le_interp y q rest hs'.2 hm'.2
            linarith
        · have hy2 : ¬ y ≤ q.1 := by intro h; exact hx2 (hxy.trans h)
          rw [if_neg hx2, if_neg hy2]
          exact ih hs'.2 hm'.2

/-! ### differences and sums -/

theorem npDiff_sum (l : List K) (hne : l ≠ []) :
    (npDiff l).sum = l.getLast hne - l.head hne := by
  induction l with
  | nil => exact absurd rfl hne
  | cons a l ih =>
    cases l with
    | nil => simp [npDiff]
    | cons b l =>
      have := ih (by simp)
      simp only [npDiff, List.sum_cons, this, List.head_cons,
        List.getLast_cons (show b :: l ≠ [] by simp)]
      ring

theorem npDiff_length (l : List K) : (npDiff l).length = l.length - 1 := by
  induction l with
  | nil => rfl
  | cons a l ih =>
    cases l with
    | nil => rfl
    | cons b l => simp only [npDiff, List.length_cons, ih]; omega

theorem npDiff_nonneg (l : List K) (h : l.Pairwise (· ≤ ·)) : ∀ d ∈ npDiff l, 0 ≤ d := by
  induction l with
  | nil => simp [npDiff]
  | cons a l ih =>
    cases l with
    | nil => simp [npDiff]
    | cons b l =>
      have h' := List.pairwise_cons.mp h
      simp only [npDiff, List.mem_cons, forall_eq_or_imp]
      exact ⟨sub_nonneg.mpr (h'.1 b (by simp)), ih h'.2⟩

theorem addL_sum (a b : List K) (h : a.length = b.length) : (addL a b).sum = a.sum + b.sum := by
  unfold addL
  induction a generalizing b with
  | nil => cases b <;> simp_all
  | cons x a ih =>
    cases b with
    | nil => simp at h
    | cons y b =>
      simp only [List.zipWith_cons_cons, List.sum_cons]
      rw [ih b (by simpa using h)]; ring

theorem addL_length (a b : List K) (h : a.length = b.length) : (addL a b).length = a.length := by
  unfold addL; simp [h]

theorem addL_nonneg (a b : List K) (ha : ∀ x ∈ a, 0 ≤ x) (hb : ∀ x ∈ b, 0 ≤ x) :
    ∀ x ∈ addL a b, 0 ≤ x := by
  unfold addL
  intro x hx
  obtain ⟨i, hi, rfl⟩ := List.mem_iff_getElem.mp hx
  simp only [List.getElem_zipWith]
  exact add_nonneg (ha _ (List.getElem_mem _)) (hb _ (List.getElem_mem _))

/-! ### cumulative sums -/

theorem cumsum0_length (acc : K) (l : List K) : (cumsum0 acc l).length = l.length + 1 := by
  induction l generalizing acc with
  | nil => rfl
  | cons c l ih => simp [cumsum0, ih]

theorem cumsum0_ne (acc : K) (l : List K) : cumsum0 acc l ≠ [] := by cases l <;> simp [cumsum0]

theorem cumsum0_head (acc : K) (l : List K) : (cumsum0 acc l).head (cumsum0_ne acc l) = acc := by
  cases l <;> simp [cumsum0]

theorem cumsum0_getLast (acc : K) (l : List K) :
    (cumsum0 acc l).getLast (cumsum0_ne acc l) = acc + l.sum := by
  induction l generalizing acc with
  | nil => simp [cumsum0]
  | cons c l ih =>
    simp only [cumsum0, List.sum_cons]
    rw [List.getLast_cons (cumsum0_ne _ _), ih]; ring

theorem cumsum0_mono (acc : K) (l : List K) (h : ∀ c ∈ l, 0 ≤ c) :
    (cumsum0 acc l).Pairwise (· ≤ ·) ∧ ∀ x ∈ cumsum0 acc l, acc ≤ x := by
  induction l generalizing acc with
  | nil => simp [cumsum0]
  | cons c l ih =>
    obtain ⟨h1, h2⟩ := ih (acc + c) (fun x hx => h x (List.mem_cons_of_mem _ hx))
    have hc := h c List.mem_cons_self
    have h3 : ∀ x ∈ cumsum0 (acc + c) l, acc ≤ x := fun x hx => by have := h2 x hx; linarith
    simp only [cumsum0, List.mem_cons, forall_eq_or_imp]
    exact ⟨List.pairwise_cons.mpr ⟨h3, h1⟩, le_rfl, h3⟩

/-- A well-formed histogram: strictly increasing edges, non-negative counts, matching lengths. -/
structure WF (h : List K × List K) : Prop where
  len : h.2.length = h.1.length + 1
  inc : h.2.Pairwise (· < ·)
  nonneg : ∀ c ∈ h.1, 0 ≤ c

theorem pairwise_zip_fst {r : K → K → Prop} (a b : List K) (h : a.Pairwise r) :
    (a.zip b).Pairwise fun p q => r p.1 q.1 := by
  rw [List.pairwise_iff_getElem] at h ⊢
  intro i j hi hj hij
  simp only [List.getElem_zip]
  simp at hi hj
  exact h i j (by omega) (by omega) hij

theorem pairwise_zip_snd {r : K → K → Prop} (a b : List K) (h : b.Pairwise r) :
    (a.zip b).Pairwise fun p q => r p.2 q.2 := by
  rw [List.pairwise_iff_getElem] at h ⊢
  intro i j hi hj hij
  simp only [List.getElem_zip]
  simp at hi hj
  exact h i j (by omega) (by omega) hij

theorem interpolateHistogram_length (mb bins counts : List K) :
    (interpolateHistogram mb bins counts).length = mb.length - 1 := by
  simp [interpolateHistogram, npDiff_length]

theorem interpolateHistogram_nonneg (mb : List K) (h : List K × List K) (wf : WF h)
    (hmb : mb.Pairwise (· ≤ ·)) : ∀ c ∈ interpolateHistogram mb h.2 h.1, 0 ≤ c := by
  apply npDiff_nonneg
  rw [List.pairwise_map]
  refine hmb.imp ?_
  intro x y hxy
  exact interp_mono hxy _ (pairwise_zip_fst _ _ wf.inc)
    (pairwise_zip_snd _ _ (cumsum0_mono 0 _ wf.nonneg).1)

theorem interpolateHistogram_sum (mb : List K) (hmb : mb ≠ []) (h : List K × List K) (wf : WF h)
    (h1 : ∀ e ∈ h.2, mb.head hmb ≤ e) (h2 : ∀ e ∈ h.2, e ≤ mb.getLast hmb) :
    (interpolateHistogram mb h.2 h.1).sum = h.1.sum := by
  unfold interpolateHistogram
  rw [npDiff_sum _ (by simpa using hmb), List.getLast_map, List.head_map]
  have hbne : h.2 ≠ [] := by
    intro h0; have := wf.len; rw [h0] at this; simp at this
  obtain ⟨b0, bs, hb⟩ := List.exists_cons_of_ne_nil hbne
  obtain ⟨c0, cs, hc⟩ := List.exists_cons_of_ne_nil (cumsum0_ne (0:K) h.1)
  have hlen : h.2.length = (cumsum0 (0:K) h.1).length := by rw [cumsum0_length, wf.len]
  have hzne : h.2.zip (cumsum0 (0:K) h.1) ≠ [] := by rw [hb, hc]; simp
  have hlo : interp (mb.head hmb) (h.2.zip (cumsum0 (0:K) h.1)) = 0 := by
    have hc0 : c0 = 0 := by
      have := cumsum0_head (0:K) h.1
      simp only [hc, List.head_cons] at this; exact this
    have hb0 : mb.head hmb ≤ b0 := h1 b0 (by rw [hb]; simp)
    rw [hb, hc, List.zip_cons_cons, interp_of_le_head _ _ _ hb0, hc0]
  have hlast : (h.2.zip (cumsum0 (0:K) h.1)).getLast hzne =
      (h.2.getLast hbne, (cumsum0 (0:K) h.1).getLast (cumsum0_ne _ _)) := by
    rw [List.getLast_eq_getElem, List.getElem_zip, List.getLast_eq_getElem, List.getLast_eq_getElem]
    congr 1 <;> congr 1 <;> simp <;> omega
  have hhi : interp (mb.getLast hmb) (h.2.zip (cumsum0 (0:K) h.1)) = h.1.sum := by
    rw [interp_of_last_le _ _ hzne (pairwise_zip_fst _ _ wf.inc), hlast, cumsum0_getLast, zero_add]
    rw [hlast]
    exact h2 _ (List.getLast_mem _)
  rw [hlo, hhi, sub_zero]

/-! ### linspace -/

theorem linspaceL_ne (lo hi : K) (k : ℕ) : linspaceL lo hi k ≠ [] := by
  simp [linspaceL]

theorem linspaceL_length (lo hi : K) (k : ℕ) : (linspaceL lo hi k).length = k + 1 := by
  simp [linspaceL]

theorem linspaceL_head (lo hi : K) (k : ℕ) :
    (linspaceL lo hi k).head (linspaceL_ne lo hi k) = lo := by
  rw [List.head_eq_getElem]; simp [linspaceL]

theorem linspaceL_getLast (lo hi : K) (k : ℕ) (hk : 1 ≤ k) :
    (linspaceL lo hi k).getLast (linspaceL_ne lo hi k) = hi := by
  have : (k : K) ≠ 0 := by exact_mod_cast (by omega : k ≠ 0)
  rw [List.getLast_eq_getElem]
  simp [linspaceL]
  field_simp; ring

theorem linspaceL_mono (lo hi : K) (k : ℕ) (h : lo ≤ hi) :
    (linspaceL lo hi k).Pairwise (· ≤ ·) := by
  rw [List.pairwise_iff_getElem]
  intro i j hi' hj hij
  simp only [linspaceL, List.getElem_map, List.getElem_range]
  have hd : 0 ≤ (hi - lo) / (k : K) := div_nonneg (by linarith) (by positivity)
  have : (i : K) ≤ (j : K) := by exact_mod_cast hij.le
  have := mul_le_mul_of_nonneg_right this hd
  linarith

theorem linspaceL_strict (lo hi : K) (k : ℕ) (hk : 1 ≤ k) (h : lo < hi) :
    (linspaceL lo hi k).Pairwise (· < ·) := by
  rw [List.pairwise_iff_getElem]
  intro i j hi' hj hij
  simp only [linspaceL, List.getElem_map, List.getElem_range]
  have hk' : (0:K) < k := by exact_mod_cast hk
  have hd : 0 < (hi - lo) / (k : K) := div_pos (by linarith) hk'
  have : (i : K) < (j : K) := by exact_mod_cast hij
  have := mul_lt_mul_of_pos_right this hd
  linarith

/-! ### numpy's histogram -/

theorem outerEdges_spec {lo hi : K} (h : lo ≤ hi) :
    (outerEdges lo hi).1 < (outerEdges lo hi).2 ∧ (outerEdges lo hi).1 ≤ lo ∧
      hi ≤ (outerEdges lo hi).2 := by
  unfold outerEdges
  split_ifs with he
  · simp only; rw [he]; constructor
    · linarith
    · constructor <;> linarith
  · exact ⟨lt_of_le_of_ne h he, le_rfl, le_rfl⟩

theorem filter_split (e : ℕ → K) (i : ℕ) (h : e i ≤ e (i + 1)) (xs : List K) :
    (xs.filter fun x => decide (e i ≤ x)).length =
      (xs.filter fun x => decide (e i ≤ x) && decide (x < e (i + 1))).length +
      (xs.filter fun x => decide (e (i + 1) ≤ x)).length := by
  induction xs with
  | nil => rfl
  | cons x xs ih =>
    by_cases h1 : e i ≤ x <;> by_cases h2 : x < e (i + 1)
    · have h3 : ¬ e (i + 1) ≤ x := not_le.mpr h2
      simp [h1, h2, h3, ih]; omega
    · have h3 : e (i + 1) ≤ x := not_lt.mp h2
      simp [h1, h2, h3, ih]; omega
    · have h3 : ¬ e (i + 1) ≤ x := not_le.mpr h2
      simp [h1, h3, ih]
    · exact absurd (h.trans (not_lt.mp h2)) h1

theorem bins_total (e : ℕ → K) (k : ℕ) (hk : 1 ≤ k) (hmono : ∀ i, e i ≤ e (i + 1)) (xs : List K)
    (h0 : ∀ x ∈ xs, e 0 ≤ x) (h1 : ∀ x ∈ xs, x ≤ e k) :
    (((List.range k).map fun i => (xs.filter (inBin e k i)).length)).sum = xs.length := by
  obtain ⟨k, rfl⟩ : ∃ m, k = m + 1 := ⟨k - 1, by omega⟩
  have part : ∀ j ≤ k, (((List.range j).map fun i => (xs.filter (inBin e (k + 1) i)).length)).sum +
      (xs.filter fun x => decide (e j ≤ x)).length = xs.length := by
    intro j hj
    induction j with
    | zero =>
      simp only [List.range_zero, List.map_nil, List.sum_nil, zero_add]
      rw [List.filter_eq_self.mpr]
      intro x hx; simpa using h0 x hx
    | succ j ih =>
      have := ih (by omega)
      rw [List.range_succ, List.map_append, List.sum_append]
      have hb : inBin e (k + 1) j = fun x => (decide (e j ≤ x) && decide (x < e (j + 1))) := by
        funext x
        have : ¬ (j = k) := by omega
        simp [inBin, this]
      have hf := filter_split e j (hmono j) xs
      simp only [List.map_cons, List.map_nil, List.sum_cons, List.sum_nil]
      rw [hb]
      omega
  have hlast := part k le_rfl
  rw [List.range_succ, List.map_append, List.sum_append]
  have hb : xs.filter (inBin e (k + 1) k) = xs.filter fun x => decide (e k ≤ x) := by
    apply List.filter_congr
    intro x hx
    have := h1 x hx
    simp [inBin, this]
  simp only [List.map_cons, List.map_nil, List.sum_cons, List.sum_nil, hb]
  omega

theorem npHistogram_spec (xs : List K) (hne : xs ≠ []) (k : ℕ) (hk : 1 ≤ k) :
    ∃ h, npHistogram xs k = some h ∧ WF h ∧ h.1.sum = (xs.length : K) ∧
      ∀ x ∈ xs, (∃ a ∈ h.2, a ≤ x) ∧ (∃ b ∈ h.2, x ≤ b) := by
  obtain ⟨lo, hlo, hlom, hlo'⟩ := npMin_spec hne
  obtain ⟨hi, hhi, hhim, hhi'⟩ := npMax_spec hne
  have hlh : lo ≤ hi := hlo' hi hhim
  obtain ⟨ho, ho1, ho2⟩ := outerEdges_spec hlh
  have hk' : (0:K) < k := by exact_mod_cast hk
  refine ⟨_, by simp only [npHistogram, hlo, hhi]; rfl, ⟨?_, ?_, ?_⟩, ?_, ?_⟩
  · simp [linspaceL]
  · exact linspaceL_strict _ _ _ hk ho
  · intro c hc
    obtain ⟨i, _, rfl⟩ := List.mem_map.mp hc
    positivity
  · have := bins_total (fun i : ℕ => (outerEdges lo hi).1 + (i : K) *
      (((outerEdges lo hi).2 - (outerEdges lo hi).1) / (k : K))) k hk ?_ xs ?_ ?_
    · have := congrArg (Nat.cast (R := K)) this
      rw [Nat.cast_list_sum, List.map_map] at this
      exact this
    · intro i
      have hd : 0 ≤ ((outerEdges lo hi).2 - (outerEdges lo hi).1) / (k : K) :=
        div_nonneg (by linarith) hk'.le
      push_cast; linarith
    · intro x hx; simp; exact ho1.trans (hlo' x hx)
    · intro x hx
      have : (k : K) * (((outerEdges lo hi).2 - (outerEdges lo hi).1) / (k : K)) =
        (outerEdges lo hi).2 - (outerEdges lo hi).1 := by field_simp
      rw [this]
      have := hhi' x hx; linarith
  · intro x hx
    refine ⟨⟨(outerEdges lo hi).1, ?_, ho1.trans (hlo' x hx)⟩,
      ⟨(outerEdges lo hi).2, ?_, (hhi' x hx).trans ho2⟩⟩
    · have := List.head_mem (linspaceL_ne (outerEdges lo hi).1 (outerEdges lo hi).2 k)
      rwa [linspaceL_head] at this
    · have := List.getLast_mem (linspaceL_ne (outerEdges lo hi).1 (outerEdges lo hi).2 k)
      rwa [linspaceL_getLast _ _ _ hk] at this

/-! ### merging -/

theorem merge_spec (n : ℕ) (hn : 1 ≤ n) (hs : List (List K × List K)) (hne : hs ≠ [])
    (hwf : ∀ h ∈ hs, WF h) :
    ∃ bins counts, mergeHistograms n hs = some (bins, counts) ∧
      counts.sum = (hs.map fun h => h.1.sum).sum ∧ (∀ c ∈ counts, 0 ≤ c) ∧
      counts.length = n ∧ bins.length = n + 1 ∧ bins.Pairwise (· ≤ ·) ∧
      ∃ (hb : bins ≠ []),
        (∀ h ∈ hs, ∀ e ∈ h.2, bins.head hb ≤ e ∧ e ≤ bins.getLast hb) ∧
        (∃ h ∈ hs, bins.head hb ∈ h.2) ∧ (∃ h ∈ hs, bins.getLast hb ∈ h.2) := by
  obtain ⟨h, rest, rfl⟩ := List.exists_cons_of_ne_nil hne
  have hstne : (h :: rest).flatMap Prod.snd ≠ [] := by
    have hl := (hwf h (by simp)).len
    intro h0
    rw [List.flatMap_cons, List.append_eq_nil_iff] at h0
    rw [h0.1] at hl; simp at hl
  obtain ⟨lo, hlo, hlom, hlo'⟩ := npMin_spec hstne
  obtain ⟨hi, hhi, hhim, hhi'⟩ := npMax_spec hstne
  have hlh : lo ≤ hi := hlo' hi hhim
  set mb := linspaceL lo hi n with hmb
  have hmbne : mb ≠ [] := linspaceL_ne lo hi n
  have hhead : mb.head hmbne = lo := linspaceL_head lo hi n
  have hlast : mb.getLast hmbne = hi := linspaceL_getLast lo hi n hn
  have hmono : mb.Pairwise (· ≤ ·) := linspaceL_mono lo hi n hlh
  have hmblen : mb.length = n + 1 := linspaceL_length lo hi n
  have hedge : ∀ g ∈ h :: rest, ∀ e ∈ g.2, lo ≤ e ∧ e ≤ hi := by
    intro g hg e he
    have : e ∈ (h :: rest).flatMap Prod.snd := List.mem_flatMap.mpr ⟨g, hg, he⟩
    exact ⟨hlo' e this, hhi' e this⟩
  have hsum : ∀ g ∈ h :: rest, (interpolateHistogram mb g.2 g.1).sum = g.1.sum := by
    intro g hg
    apply interpolateHistogram_sum mb hmbne g (hwf g hg)
    · intro e he; rw [hhead]; exact (hedge g hg e he).1
    · intro e he; rw [hlast]; exact (hedge g hg e he).2
  have hlen : ∀ g : List K × List K, (interpolateHistogram mb g.2 g.1).length = n := by
    intro g; rw [interpolateHistogram_length, hmblen]; rfl
  have hnn : ∀ g ∈ h :: rest, ∀ c ∈ interpolateHistogram mb g.2 g.1, 0 ≤ c := fun g hg =>
    interpolateHistogram_nonneg mb g (hwf g hg) hmono
  have fold : ∀ (l : List (List K × List K)) (acc : List K), (∀ g ∈ l, g ∈ h :: rest) →
      acc.length = n → (∀ c ∈ acc, 0 ≤ c) →
      (l.foldl (fun acc g => addL acc (interpolateHistogram mb g.2 g.1)) acc).sum =
        acc.sum + (l.map fun g => g.1.sum).sum ∧
      (l.foldl (fun acc g => addL acc (interpolateHistogram mb g.2 g.1)) acc).length = n ∧
      ∀ c ∈ l.foldl (fun acc g => addL acc (interpolateHistogram mb g.2 g.1)) acc, 0 ≤ c := by
    intro l
    induction l with
    | nil => intro acc _ h1 h2; simp [h1]; exact h2
    | cons g l ih =>
      intro acc hsub h1 h2
      have hg := hsub g (by simp)
      have hl1 : acc.length = (interpolateHistogram mb g.2 g.1).length := by rw [h1, hlen]
      obtain ⟨i1, i2, i3⟩ := ih (addL acc (interpolateHistogram mb g.2 g.1))
        (fun g' hg' => hsub g' (List.mem_cons_of_mem _ hg')) (by rw [addL_length _ _ hl1, h1])
        (addL_nonneg _ _ h2 (hnn g hg))
      simp only [List.foldl_cons, List.map_cons, List.sum_cons]
      refine ⟨?_, i2, i3⟩
      rw [i1, addL_sum _ _ hl1, hsum g hg]; ring
  obtain ⟨f1, f2, f3⟩ := fold rest (interpolateHistogram mb h.2 h.1)
    (fun g hg => List.mem_cons_of_mem _ hg) (hlen h) (hnn h (by simp))
  refine ⟨mb, _, by simp only [mergeHistograms, hlo, hhi]; rfl, ?_, f3, f2, hmblen, hmono, hmbne,
    ?_, ?_, ?_⟩
  · rw [f1, hsum h (by simp)]; simp
  · intro g hg e he; rw [hhead, hlast]; exact hedge g hg e he
  · rw [hhead]
    obtain ⟨g, hg, he⟩ := List.mem_flatMap.mp hlom
    exact ⟨g, hg, he⟩
  · rw [hlast]
    obtain ⟨g, hg, he⟩ := List.mem_flatMap.mp hhim
    exact ⟨g, hg, he⟩

/-! ### updating a histogram collector -/

theorem updates_spec (s : Hist K) (hn : 1 ≤ s.nBins) (bs : List (List K)) (hbs : ∀ b ∈ bs, b ≠ []) :
    ∃ hs : List (List K × List K),
      List.Forall₂ (fun b h => npHistogram b s.nBins = some h) bs hs ∧
      s.updates bs = some { s with perIter := s.perIter ++ hs } := by
  unfold Hist.updates
  induction bs generalizing s with
  | nil => exact ⟨[], .nil, by simp⟩
  | cons b bs ih =>
    obtain ⟨h, hh, _⟩ := npHistogram_spec b (hbs b (by simp)) s.nBins hn
    obtain ⟨hs, h1, h2⟩ := ih { s with perIter := s.perIter ++ [h] } hn
      (fun b' hb' => hbs b' (List.mem_cons_of_mem _ hb'))
    refine ⟨h :: hs, .cons hh h1, ?_⟩
    rw [List.foldlM_cons]
    simp only [Hist.update, hh, Option.map_some]
    rw [Option.bind_eq_bind, Option.bind_some, h2]
    simp

end MCT.Collect
