import Verif.Search.Lemmas
import Verif.Common.Lists
import Mathlib.Tactic.NormNum.DivMod

set_option linter.unusedSectionVars false

/-!
# Property theorems C07–C13, C53–C55 (parameter searches)
-/

namespace MCT.Search

open MCT.Quant MCT.QuantSpec MCT.SearchSpec

variable {K : Type*} [Field K] [LinearOrder K] [IsStrictOrderedRing K] [FloorRing K]

/-! ## C07: power-of-two search -/

/-- C07, per-tensor search. `T` is a power of two that dominates the data (the least one covering it
when `n ≥ 2`); the candidates are `2T/2^i`, `i < nIter`; the returned threshold is the first candidate
of minimal error, floored at `minThr`, and it is a power of two if `minThr` is. -/
theorem C07_per_tensor (err : List (Option K) → List K → K → K) (xs : List K) (n nIter : ℕ)
    (minThr : K) (signed : Bool) (hxs : xs ≠ []) (hn : 1 ≤ n) (hit : 1 ≤ nIter) (hmin : 0 < minThr) :
    ∃ T i t e, potSearch err xs n nIter minThr signed = some (t, e) ∧
      IsPow2 T ∧ minThr ≤ T ∧ (∀ x ∈ xs, -T ≤ x) ∧ (2 ≤ n → LeastCoveringPow2 T minThr n xs) ∧
      FirstArgmin (fun j => err (xs.map fun x => quantizeTensor x (2 * T / 2 ^ j) n signed) xs
        (2 * T / 2 ^ j)) nIter i ∧
      t = max (2 * T / 2 ^ i) minThr ∧
      e = err (xs.map fun x => quantizeTensor x (2 * T / 2 ^ i) n signed) xs (2 * T / 2 ^ i) ∧
      minThr ≤ t ∧ (IsPow2 minThr → IsPow2 t) := by
  obtain ⟨m, hm, hneg, hcov⟩ := tensorMaxOf_covers hxs hn
  obtain ⟨p1, p2, p3, p4⟩ := C06_least_pow2 m minThr hmin
  obtain ⟨i, hi, ha⟩ := argminV_map_range (fun i =>
      err (xs.map fun x => quantizeTensor x (2 * maxPowerOfTwo m minThr / 2 ^ i) n signed) xs
        (2 * maxPowerOfTwo m minThr / 2 ^ i)) nIter hit
  refine ⟨maxPowerOfTwo m minThr, i, _, _, ?_, p1, (le_max_right _ _).trans p2, ?_, ?_, ha, rfl, rfl,
    le_max_right _ _, fun h => isPow2_max (isPow2_scale p1 i) h⟩
  · unfold potSearch
    rw [hm]; dsimp only; rw [hi]
  · intro x hx
    have := hneg x hx
    have := (le_max_left m minThr).trans p2
    linarith
  · intro h2
    have hc := hcov h2
    refine ⟨⟨p1, (le_max_right _ _).trans p2,
      (hc _ (isPow2_pos p1)).mpr ((le_max_left _ _).trans p2)⟩, ?_⟩
    intro t ht hlo hcv
    exact p4 t ht (max_le ((hc t (isPow2_pos ht)).mp hcv) hlo)

/-- C07, one channel of the per-channel search. -/
theorem C07_per_channel (err : List K → List (Option K) → K → K) (xs : List K) (n nIter : ℕ)
    (minThr : K) (signed : Bool) (hxs : xs ≠ []) (hn : 1 ≤ n) (hit : 1 ≤ nIter) (hmin : 0 < minThr) :
    ∃ T i t e, potSearchChannel err xs n nIter minThr signed = some (t, e) ∧
      IsPow2 T ∧ minThr ≤ T ∧ (∀ x ∈ xs, -T ≤ x) ∧ (2 ≤ n → LeastCoveringPow2 T minThr n xs) ∧
      FirstArgmin (fun j => err xs (xs.map fun x => quantizeTensor x (2 * T / 2 ^ j) n signed)
        (2 * T / 2 ^ j)) nIter i ∧
      t = max (2 * T / 2 ^ i) minThr ∧
      e = err xs (xs.map fun x => quantizeTensor x (2 * T / 2 ^ i) n signed) (2 * T / 2 ^ i) ∧
      minThr ≤ t ∧ (IsPow2 minThr → IsPow2 t) := by
  have hsw : potSearchChannel err xs n nIter minThr signed =
      potSearch (fun q x t => err x q t) xs n nIter minThr signed := rfl
  rw [hsw]
  exact C07_per_tensor (fun q x t => err x q t) xs n nIter minThr signed hxs hn hit hmin

example : ([1/2, -3] : List ℚ) ≠ [] ∧ 1 ≤ 2 ∧ 1 ≤ 10 ∧ (0 : ℚ) < 1 / 65536 :=
  ⟨by simp, by norm_num, by norm_num, by norm_num⟩

/-- C07, all axes: every channel of the selected axis got the result of its own search, and no axis
has a smaller mean error; ties go to the first axis. -/
theorem C07_axis (err : List K → List (Option K) → K → K) (axes : List (List (List K)))
    (n nIter : ℕ) (minThr : K) (signed : Bool) (th : List K) (a : ℕ)
    (h : potSearchAxes err axes n nIter minThr signed = some (th, a)) :
    ∃ (tot : ℕ → K), a < axes.length ∧
      (∀ i (hi : i < axes.length), ∃ rs : List (K × K),
        List.Forall₂ (fun xs r => potSearchChannel err xs n nIter minThr signed = some r) axes[i] rs ∧
        tot i = (rs.map Prod.snd).sum / rs.length ∧ (i = a → th = rs.map Prod.fst)) ∧
      FirstArgmin tot axes.length a := by
  unfold potSearchAxes at h
  split at h
  · exact absurd h (by simp)
  rename_i rs hrs
  split at h
  · exact absurd h (by simp)
  rename_i i e hi
  obtain ⟨hlt, _, h1, h2⟩ := argminV_spec _ _ _ hi
  have hF := (MCT.Common.mapM_some_iff _ _ _).mp hrs
  have hlen := hF.length_eq
  simp only [List.length_map] at hlt
  simp only [List.getElem?_eq_getElem hlt, Option.map_some, Option.some.injEq, Prod.mk.injEq] at h
  obtain ⟨rfl, rfl⟩ := h
  refine ⟨fun j => ((rs[j]?).map Prod.snd).getD 0, by omega, ?_, by omega, ?_, ?_⟩
  · intro j hj
    have hj' : j < rs.length := by omega
    have hget := List.forall₂_iff_get.mp hF |>.2 j hj hj'
    simp only [List.get_eq_getElem] at hget
    unfold potSearchPerChannel at hget
    split at hget
    · exact absurd hget (by simp)
    rename_i cs hcs
    refine ⟨cs, (MCT.Common.mapM_some_iff _ _ _).mp hcs, ?_, ?_⟩
    · injection hget with hget
      simp [List.getElem?_eq_getElem hj', ← hget]
    · rintro rfl
      injection hget with hget
      simp [← hget]
  · intro j hj
    have hj' : j < rs.length := by omega
    have := h1 j (by simpa using hj')
    simp_all
  · intro j hj
    have hj' : j < rs.length := by omega
    have := h2 j hj
    simp_all

/-- A concrete search over two axes of a 2×2 tensor. -/
example : potSearchAxes (fun _ _ t => t) ([[[1, 2], [3, 4]], [[1, 3], [2, 4]]] : List (List (List ℚ)))
    8 3 (1 / 65536) true = some ([2, 4], 0) := by decide +kernel

/-- C53 (argument order, holds for symmetric errors). For an error function that does not depend on
the order of its two tensors, the per-tensor search and the per-channel search with a single channel
return the same threshold. -/
theorem C53_argument_order_partial (err : List (Option K) → List (Option K) → K → K)
    (hsym : ∀ a b t, err a b t = err b a t) (xs : List K) (n nIter : ℕ) (minThr : K)
    (signed : Bool) :
    potSearch (fun q x t => err q (x.map some) t) xs n nIter minThr signed =
      potSearchChannel (fun x q t => err (x.map some) q t) xs n nIter minThr signed := by
  have e : (fun (q : List (Option K)) (x : List K) t => err q (x.map some) t) =
      fun q x t => err (x.map some) q t := by
    funext q x t; exact hsym _ _ _
  rw [e]; rfl

/-- C53 (violated). The per-tensor search hands the quantized tensor to the error function where the
per-channel search hands the float tensor: for an error function that is not symmetric (as the KL
error, error_functions.py:456-468, which only reads its first tensor) the two disagree. -/
theorem C53_argument_order_violated :
    ∃ (err : List (Option ℚ) → List (Option ℚ) → ℚ → ℚ) (xs : List ℚ),
      (potSearch (fun q x t => err q (x.map some) t) xs 2 2 (1 / 65536) true).map Prod.fst ≠
        (potSearchChannel (fun x q t => err (x.map some) q t) xs 2 2 (1 / 65536) true).map
          Prod.fst := by
  refine ⟨fun a _ _ => -((a.headD none).getD 0), [1 / 2], ?_⟩
  decide +kernel

/-! ## C08: no-clipping weight thresholds do not clip -/

/-- C08. The power-of-two and symmetric no-clipping thresholds are positive, at least `minThr`, cover
every element, and quantization moves no element by more than half a step. -/
theorem C08_no_clipping (xs : List K) (n : ℕ) (minThr : K) (hxs : xs ≠ []) (hn : 2 ≤ n)
    (hmin : 0 < minThr) (t : K)
    (ht : potNoClip xs n minThr = some t ∨ symNoClip xs n minThr = some t) :
    minThr ≤ t ∧ Covers t n xs ∧
    ∀ x ∈ xs, ∃ q, quantizeTensor x t n true = some q ∧ |q - x| ≤ (t / 2 ^ (n - 1)) / 2 := by
  obtain ⟨m, hm, _, hcov⟩ := tensorMaxOf_covers hxs (show 1 ≤ n by omega)
  have hmt : max m minThr ≤ t := by
    rcases ht with ht | ht
    · simp only [potNoClip, hm, Option.map_some, Option.some.injEq] at ht
      rw [← ht]; exact (C06_least_pow2 m minThr hmin).2.1
    · simp only [symNoClip, hm, Option.map_some, Option.some.injEq] at ht
      rw [← ht, max_comm]
  have h0 : minThr ≤ t := (le_max_right _ _).trans hmt
  have htp : 0 < t := lt_of_lt_of_le hmin h0
  have hc : Covers t n xs := (hcov hn t htp).mpr ((le_max_left _ _).trans hmt)
  exact ⟨h0, hc, fun x hx => covers_error htp (by omega) hc hx⟩

/-- C08. A threshold is always produced for a non-empty tensor, and the symmetric one is the least
threshold at least `minThr` that covers the data. -/
theorem C08_symmetric_least (xs : List K) (n : ℕ) (minThr : K) (hxs : xs ≠ []) (hn : 2 ≤ n)
    (hmin : 0 < minThr) :
    (∃ t, potNoClip xs n minThr = some t ∧ LeastCoveringPow2 t minThr n xs) ∧
    (∃ t, symNoClip xs n minThr = some t ∧ ∀ s, minThr ≤ s → Covers s n xs → t ≤ s) := by
  obtain ⟨m, hm, _, hcov⟩ := tensorMaxOf_covers hxs (show 1 ≤ n by omega)
  obtain ⟨p1, p2, p3, p4⟩ := C06_least_pow2 m minThr hmin
  have hc := hcov hn
  constructor
  · refine ⟨_, by rw [potNoClip, hm]; rfl, ⟨p1, (le_max_right _ _).trans p2,
      (hc _ (isPow2_pos p1)).mpr ((le_max_left _ _).trans p2)⟩, ?_⟩
    intro t ht hlo hcv
    exact p4 t ht (max_le ((hc t (isPow2_pos ht)).mp hcv) hlo)
  · refine ⟨_, by rw [symNoClip, hm]; rfl, ?_⟩
    intro s hs hcv
    exact max_le hs ((hc s (lt_of_lt_of_le hmin hs)).mp hcv)

example : symNoClip ([1 / 2, -3, 4] : List ℚ) 2 (1 / 65536) = some 8 ∧
    potNoClip ([1 / 2, -3, 3] : List ℚ) 3 (1 / 65536) = some 4 := by decide +kernel

/-- C54 (uniform no-clipping range). The uniform no-clipping range of a tensor that is not entirely
zero is a proper range that contains every element, so no element is moved by more than half a step
beyond the zero adjustment of the range. -/
theorem C54_uniform_range_partial (xs : List K) (n : ℕ) (perTensor : Bool) (hn : 1 ≤ n)
    (hne : ∃ x ∈ xs, x ≠ 0) :
    ∃ lo hi, uniNoClip xs n perTensor = some (lo, hi) ∧ lo < hi ∧
      (∀ x ∈ xs, lo ≤ x ∧ x ≤ hi) ∧ ∀ x ∈ xs, ∃ q, uniformQuantize x lo hi n = some q := by
  obtain ⟨x0, hx0, hx0ne⟩ := hne
  have hxs : xs ≠ [] := by rintro rfl; simp at hx0
  obtain ⟨lo, hlo, hlom, hlo'⟩ := npMin_spec hxs
  obtain ⟨hi, hhi, hhim, hhi'⟩ := npMax_spec hxs
  have hn' : ¬ n < 1 := by omega
  have hT : tensorMaxOf xs n true = some (max (-lo) hi) := by
    simp [tensorMaxOf, hlo, hhi, tensorMax, hn']
  have hlx := hlo' x0 hx0
  have hhx := hhi' x0 hx0
  have h1 := le_max_left (-lo) hi
  have h2 := le_max_right (-lo) hi
  have hall : ∀ x ∈ xs, lo ≤ x ∧ x ≤ max (-lo) hi := fun x hx =>
    ⟨hlo' x hx, (hhi' x hx).trans h2⟩
  have fin : ∀ a b : K, a < b → ∀ x, ∃ q, uniformQuantize x a b n = some q := by
    intro a b hab x
    exact ⟨_, uniformQuantize_eq x a b n hab hn⟩
  have hmpos : 0 ≤ max (-lo) hi ∨ 0 < lo := by
    rcases le_or_gt lo 0 with h | h
    · left; linarith
    · right; exact h
  unfold uniNoClip
  rw [hlo, hT]
  cases perTensor with
  | true =>
    simp only [if_true]
    refine ⟨_, _, rfl, ?_, ?_, ?_⟩
    all_goals
      have hnot : ¬ max (-lo) hi < 0 := by
        intro h; rcases hmpos with h' | h' <;> linarith
      simp only [hnot, if_false]
    · split_ifs with hp
      · linarith
      · rcases lt_or_eq_of_le (not_lt.mp hp) with h | h
        · linarith
        · rcases lt_or_gt_of_ne hx0ne with h' | h'
          · linarith
          · linarith
    · intro x hx
      refine ⟨?_, (hall x hx).2⟩
      split_ifs with hp
      · have := (hall x hx).1; linarith
      · exact (hall x hx).1
    · intro x hx
      apply fin
      split_ifs with hp
      · linarith
      · rcases lt_or_eq_of_le (not_lt.mp hp) with h | h
        · linarith
        · rcases lt_or_gt_of_ne hx0ne with h' | h' <;> linarith
  | false =>
    simp only [Bool.false_eq_true, if_false]
    have hle : lo ≤ max (-lo) hi := hlx.trans (hhx.trans h2)
    by_cases he : max (-lo) hi = lo
    · -- a constant positive channel
      have hpos : 0 < lo := by
        rcases lt_trichotomy lo 0 with h | h | h
        · linarith
        · exfalso; apply hx0ne; linarith
        · exact h
      have hnn : ¬ max (-lo) hi < 0 := by linarith
      refine ⟨0, max (-lo) hi, ?_, by linarith, ?_, ?_⟩
      · have hc1 : max (-lo) hi = lo ∧ lo > 0 := ⟨he, hpos⟩
        have hc2 : ¬ (max (-lo) hi = lo ∧ max (-lo) hi < 0) := fun h => hnn h.2
        rw [if_pos hc1, if_neg hc2]
      · intro x hx
        exact ⟨by have := (hall x hx).1; linarith, (hall x hx).2⟩
      · intro x _; exact fin _ _ (by linarith) x
    · have hlt : lo < max (-lo) hi := lt_of_le_of_ne hle (Ne.symm he)
      refine ⟨lo, max (-lo) hi, by simp [he], hlt, hall, fun x _ => fin _ _ hlt x⟩

example : uniNoClip ([2, 2] : List ℚ) 8 false = some (0, 2) ∧
    uniNoClip ([-1, 1 / 2] : List ℚ) 8 true = some (-1, 1) := by decide +kernel

/-- C54 (violated). For an all-zero tensor the selected uniform range is `(0, 0)` and quantizing with
it produces NaN. -/
theorem C54_all_zero_violated (k n : ℕ) (hn : 1 ≤ n) (perTensor : Bool) :
    uniNoClip (List.replicate (k + 1) (0 : K)) n perTensor = some (0, 0) ∧
    uniformQuantize (0 : K) 0 0 n = none := by
  have hmin : npMin (List.replicate (k + 1) (0 : K)) = some 0 := by
    obtain ⟨m, h1, h2, _⟩ := npMin_spec (xs := List.replicate (k + 1) (0 : K)) (by simp)
    rw [h1, List.eq_of_mem_replicate h2]
  have hmax : npMax (List.replicate (k + 1) (0 : K)) = some 0 := by
    obtain ⟨m, h1, h2, _⟩ := npMax_spec (xs := List.replicate (k + 1) (0 : K)) (by simp)
    rw [h1, List.eq_of_mem_replicate h2]
  have hn' : n ≠ 0 := by omega
  constructor
  · simp [uniNoClip, tensorMaxOf, hmin, hmax, tensorMax, hn']
  · simp [uniformQuantize]

/-! ## C09: no-clipping activation thresholds -/

/-- C09 (violated). A bounded activation with values in `[-8, 1]` gets the threshold 1: the collected
minimum is ignored and 7/8 of the negative range is clipped. -/
theorem C09_min_ignored_violated :
    potNoClipMinMax (-8 : ℚ) 1 (1 / 65536) = some 1 ∧
    symNoClipMinMax (-8 : ℚ) 1 (1 / 65536) = some 1 ∧
    quantizeTensor (-8 : ℚ) 1 8 true = some (-1) := by
  refine ⟨by decide +kernel, by decide +kernel, by decide +kernel⟩

/-- C09, what holds: the min/max selection always covers `|maxV|` (not `|minV|`), covers both when
`|minV| ≤ |maxV|`, and never falls below `minThr`.
Missing: `|minV| ≤ t` for ranges whose minimum is the larger end. -/
theorem C09_min_max_partial (minV maxV minThr t : K) (hmin : 0 < minThr)
    (h : potNoClipMinMax minV maxV minThr = some t ∨ symNoClipMinMax minV maxV minThr = some t) :
    |maxV| ≤ t ∧ minThr ≤ t ∧ (|minV| ≤ |maxV| → |minV| ≤ t) := by
  have hm : max |maxV| minThr ≤ t := by
    rcases h with h | h
    · simp [potNoClipMinMax, potNoClipHist, histAbsMax, npMax] at h
      rw [← h]; exact (C06_least_pow2 _ minThr hmin).2.1
    · simp [symNoClipMinMax, symNoClipHist, histAbsMax, npMax] at h
      rw [← h, max_comm]
  have h1 := (le_max_left _ _).trans hm
  have h2 := (le_max_right _ _).trans hm
  exact ⟨h1, h2, fun h => h.trans h1⟩

example : ∃ t, symNoClipMinMax (-1 : ℚ) 6 (1 / 65536) = some t := ⟨6, by decide +kernel⟩

/-- C09, histogram, what holds: the right edge of every non-empty bin is covered.
Missing: the left edge of the first non-empty bin, i.e. the collected minimum. -/
theorem C09_histogram_partial (bins counts : List K) (minThr t : K) (hmin : 0 < minThr)
    (h : potNoClipHist bins counts minThr = some t ∨ symNoClipHist bins counts minThr = some t)
    (i : ℕ) (hi : i + 1 < bins.length) (hc : i < counts.length) (hpos : 0 < counts[i]) :
    |bins[i + 1]| ≤ t ∧ minThr ≤ t := by
  have hmem : |bins[i + 1]| ∈ (((bins.map abs).tail).zip counts).filterMap
      (fun p => if 0 < p.2 then some p.1 else none) := by
    rw [List.mem_filterMap]
    refine ⟨(|bins[i + 1]|, counts[i]), ?_, by simp [hpos]⟩
    rw [List.mem_iff_getElem]
    refine ⟨i, by simp; omega, by simp⟩
  have hne : (((bins.map abs).tail).zip counts).filterMap
      (fun p => if 0 < p.2 then some p.1 else none) ≠ [] := List.ne_nil_of_mem hmem
  obtain ⟨m, hm, _, hle⟩ := npMax_spec hne
  have hbm := hle _ hmem
  have hmt : max m minThr ≤ t := by
    rcases h with h | h
    · simp only [potNoClipHist, histAbsMax, hm, Option.map_some, Option.some.injEq] at h
      rw [← h]; exact (C06_least_pow2 _ minThr hmin).2.1
    · simp only [symNoClipHist, histAbsMax, hm, Option.map_some, Option.some.injEq] at h
      rw [← h, max_comm]
  exact ⟨hbm.trans ((le_max_left _ _).trans hmt), (le_max_right _ _).trans hmt⟩

example : potNoClipHist ([-4, 0, 3] : List ℚ) [2, 5] (1 / 65536) = some 4 := by decide +kernel

/-- C09 (violated) on a histogram: all the mass in the bin `[-4, -1]` gives threshold 1. -/
theorem C09_histogram_left_edge_violated :
    potNoClipHist ([-4, -1, 1 / 2] : List ℚ) [2, 0] (1 / 65536) = some 1 := by decide +kernel

/-- C09, uniform quantization: the range spans the left edge and the right edge of every non-empty
bin; for the min/max selection it is exactly `[minV, maxV]`. -/
theorem C09_uniform_covers (bins counts : List K) (lo hi : K)
    (h : uniNoClipHist bins counts = some (lo, hi))
    (i : ℕ) (hi' : i + 1 < bins.length) (hc : i < counts.length) (hpos : 0 < counts[i]) :
    lo ≤ bins[i] ∧ bins[i + 1] ≤ hi := by
  have hm1 : bins[i] ∈ ((bins.dropLast).zip counts).filterMap
      (fun p => if 0 < p.2 then some p.1 else none) := by
    rw [List.mem_filterMap]
    refine ⟨(bins[i], counts[i]), ?_, by simp [hpos]⟩
    rw [List.mem_iff_getElem]
    refine ⟨i, by simp; omega, by simp⟩
  have hm2 : bins[i + 1] ∈ ((bins.tail).zip counts).filterMap
      (fun p => if 0 < p.2 then some p.1 else none) := by
    rw [List.mem_filterMap]
    refine ⟨(bins[i + 1], counts[i]), ?_, by simp [hpos]⟩
    rw [List.mem_iff_getElem]
    refine ⟨i, by simp; omega, by simp⟩
  obtain ⟨a, ha, _, hla⟩ := npMin_spec (List.ne_nil_of_mem hm1)
  obtain ⟨b, hb, _, hlb⟩ := npMax_spec (List.ne_nil_of_mem hm2)
  unfold uniNoClipHist at h
  simp only [ha, hb, Option.some.injEq, Prod.mk.injEq] at h
  obtain ⟨rfl, rfl⟩ := h
  exact ⟨hla _ hm1, hlb _ hm2⟩

example : uniNoClipMinMax (-8 : ℚ) 1 = some (-8, 1) := by decide +kernel

/-! ## C10: iterative searches -/

/-- C10, symmetric search over any number of channels, any finite loss function, any schedule.
For every channel: the reported loss is the loss of the returned threshold, the returned threshold is
one of the evaluated ones, its loss is minimal among all evaluated thresholds, in particular not
larger than the loss of the starting point, and at most `1 + nIter * nIntervals` thresholds are
evaluated. -/
theorem C10_symmetric {m : ℕ} (perChannel : Bool) (L : List K → List (Option K) → K → K)
    (x : Fin m → List K) (x0 : Fin m → K) (n : ℕ) (signed : Bool) (nIntervals nIter : ℕ)
    (hint : 1 ≤ nIntervals)
    (alpha beta : K) (f : K × K) (decFreq : ℕ) (bottom upper tol : K) (c : Fin m) :
    let r := symIterMin perChannel (fun a b t => .fin (L a b t)) x x0 n signed nIntervals nIter
      alpha beta f decFreq bottom upper tol
    let lossOf : K → K := fun t => L (x c) ((x c).map fun v => quantizeTensor v t n signed) t
    (r.best c).loss = .fin (lossOf (r.best c).param) ∧
    (r.best c).param ∈ r.seen c ∧ x0 c ∈ r.seen c ∧
    (∀ t ∈ r.seen c, lossOf (r.best c).param ≤ lossOf t) ∧
    lossOf (r.best c).param ≤ lossOf (x0 c) ∧
    (r.seen c).length ≤ 1 + nIter * nIntervals := by
  intro r lossOf
  let F : Fin m → K → K := fun c t => L (x c) ((x c).map fun v => quantizeTensor v t n signed) t
  have hin : InnerOK (K := K) (P := K) (if perChannel then foldBest else argBest) := by
    cases perChannel
    · exact argBest_ok
    · exact foldBest_ok
  have hinv : IterInv F r := iterRounds_inv _ _ hin F _ _ _ _ _ (iterInit_inv F x0 (alpha, beta))
  obtain ⟨⟨l, hl⟩, hlen⟩ := iterRounds_seen (fun (s : K × K) (t : K) =>
    linspace (t * s.1) (t * s.2) (nIntervals - 1)) (nIntervals - 1) (by intro s p; simp [linspace])
    (if perChannel then foldBest else argBest) (fun c t => Loss.fin (F c t))
    (symNext decFreq f bottom upper) tol nIter 0 (iterInit (fun c t => Loss.fin (F c t)) x0
    (alpha, beta)) c
  have h0 : x0 c ∈ r.seen c := by
    have : r.seen c = [x0 c] ++ l := hl
    rw [this]; simp
  obtain ⟨i1, i2, i3⟩ := hinv c
  refine ⟨i1, i2, h0, i3, i3 _ h0, ?_⟩
  have : (r.seen c).length ≤ 1 + nIter * (nIntervals - 1 + 1) := hlen
  rwa [Nat.sub_add_cancel hint] at this

/-- C10, uniform search. -/
theorem C10_uniform {m : ℕ} (perChannel : Bool) (L : List K → List (Option K) → K × K → K)
    (x : Fin m → List K) (x0 : Fin m → K × K) (n : ℕ) (sc0 : K × K) (scs : List (K × K))
    (nIter : ℕ) (tol : K) (c : Fin m) :
    let r := uniIterMin perChannel (fun a b t => .fin (L a b t)) x x0 n sc0 scs nIter tol
    let lossOf : K × K → K := fun p => L (x c) ((x c).map fun v => uniformQuantize v p.1 p.2 n) p
    (r.best c).loss = .fin (lossOf (r.best c).param) ∧
    (r.best c).param ∈ r.seen c ∧ x0 c ∈ r.seen c ∧
    (∀ t ∈ r.seen c, lossOf (r.best c).param ≤ lossOf t) ∧
    lossOf (r.best c).param ≤ lossOf (x0 c) ∧
    (r.seen c).length ≤ 1 + nIter * (scs.length + 1) := by
  intro r lossOf
  let F : Fin m → K × K → K := fun c p => L (x c) ((x c).map fun v => uniformQuantize v p.1 p.2 n) p
  have hin : InnerOK (K := K) (P := K × K) (if perChannel then foldBest else argBest) := by
    cases perChannel
    · exact argBest_ok
    · exact foldBest_ok
  have hinv : IterInv F r := iterRounds_inv _ _ hin F _ _ _ _ _ (iterInit_inv F x0 ())
  obtain ⟨⟨l, hl⟩, hlen⟩ := iterRounds_seen (fun (_ : Unit) (p : K × K) => uniCands sc0 scs p)
    scs.length (by intro s p; simp [uniCands])
    (if perChannel then foldBest else argBest) (fun c t => Loss.fin (F c t))
    (fun _ s => s) tol nIter 0 (iterInit (fun c t => Loss.fin (F c t)) x0 ()) c
  have h0 : x0 c ∈ r.seen c := by
    have : r.seen c = [x0 c] ++ l := hl
    rw [this]; simp
  obtain ⟨i1, i2, i3⟩ := hinv c
  exact ⟨i1, i2, h0, i3, i3 _ h0, hlen⟩

/-- A concrete run: the best of two rounds with three intervals. -/
example : ((symIterMin (m := 1) false (fun _ _ t => Loss.fin |t - (1 : ℚ)|) (fun _ => [1, 2])
    (fun _ => 2) 8 true 3 2 (1 / 2) (3 / 2) (1, 1) 5 1 1 0).best 0).param = 1 := by decide +kernel

/-- C10, flooring. The per-tensor symmetric search returns at least `minThr`; when the best threshold
found is not below `minThr` the returned one is the best one, so its loss is at most that of the
no-clipping threshold `max minThr tensor_max`. -/
theorem C10_floor (L : List K → List (Option K) → K → K) (xs : List K) (n : ℕ) (signed : Bool)
    (nIntervals nIter : ℕ) (hint : 1 ≤ nIntervals) (alpha beta : K) (f : K × K) (decFreq : ℕ)
    (bottom upper tol minThr t : K)
    (h : symSearch (fun a b t => .fin (L a b t)) xs n signed nIntervals nIter alpha beta f decFreq
      bottom upper tol minThr = some t) :
    minThr ≤ t ∧ ∃ tm, symNoClip xs n minThr = some tm ∧
      (t ≠ minThr →
        L xs (xs.map fun v => quantizeTensor v t n signed) t ≤
          L xs (xs.map fun v => quantizeTensor v tm n signed) tm) := by
  unfold symSearch at h
  rcases hm : tensorMaxOf xs n false with _ | m
  · rw [hm] at h; exact absurd h (by simp)
  rw [hm] at h
  simp only [Option.map_some, Option.some.injEq] at h
  refine ⟨h ▸ le_max_left _ _, max minThr m, by simp [symNoClip, hm], ?_⟩
  intro hne
  have hC := C10_symmetric (m := 1) false L (fun _ => xs) (fun _ => max minThr m) n signed
    nIntervals nIter hint alpha beta f decFreq bottom upper tol 0
  dsimp only at hC
  rcases max_choice minThr ((symIterMin (m := 1) false (fun a b t => Loss.fin (L a b t)) (fun _ => xs)
      (fun _ => max minThr m) n signed nIntervals nIter alpha beta f decFreq bottom upper tol).best
      0).param with e | e
  · exact absurd (h ▸ e) hne
  · rw [e] at h
    rw [← h]
    exact hC.2.2.2.2.1

/-- C55 (violated). Infinite losses freeze the search: with the losses `5, ∞, 1` of three candidates
the loss recorded after the infinite one is NaN, and the candidate with loss 1 is not selected. -/
theorem C55_infinite_loss_violated :
    let loss : ℕ → Loss ℚ := fun p => if p = 0 then .fin 5 else if p = 1 then .inf else .fin 1
    (foldBest loss 0 [1, 2]).param = 0 ∧ (foldBest loss 0 [1, 2]).loss = .nan ∧
    (foldBest loss 0 [2]).param = 2 := by decide +kernel

/-- C55 (violated). Also a starting point with an infinite loss: the improvement is taken but its loss
is recorded as NaN, so no later candidate can improve on it. -/
theorem C55_infinite_start_violated :
    let loss : ℕ → Loss ℚ := fun p => if p = 0 then .inf else if p = 1 then .fin 5 else .fin 1
    (foldBest loss 0 [1, 2]).param = 1 ∧ (foldBest loss 0 [1, 2]).loss = .nan := by decide +kernel

/-! ## C11: look-up tables -/

/-- C11. LUT quantization returns the (rounded, rescaled) nearest centre, first index on ties; it
fails only for an empty LUT. -/
theorem C11_nearest_centre (lut : List K) (threshold eps x : K) (lutBits : ℕ) (hne : lut ≠ []) :
    ∃ i, ∃ hi : i < lut.length,
      lutQuantize lut threshold lutBits eps x =
        some (((npRound lut[i] : K) / 2 ^ (lutBits - 1)) * threshold) ∧
      let q := intQuantWithThreshold x threshold lutBits true eps
      (∀ c ∈ lut, |q - lut[i]| ≤ |q - c|) ∧
      ∀ j (hj : j < i), |q - lut[i]| < |q - lut[j]'(hj.trans hi)| := by
  set q := intQuantWithThreshold x threshold lutBits true eps with hq
  rcases h : argminV (lut.map fun c => |q - c|) with _ | ⟨i, v⟩
  · rw [argminV_none] at h; simp at h; exact absurd h hne
  · obtain ⟨hi, e, h1, h2⟩ := argminV_spec _ _ _ h
    simp only [List.length_map] at hi
    simp only [List.getElem_map] at e h1 h2
    refine ⟨i, hi, ?_, ?_, ?_⟩
    · simp [lutQuantize, assignCluster, ← hq, h, List.getElem?_eq_getElem hi]
    · intro c hc
      obtain ⟨j, hj, rfl⟩ := List.mem_iff_getElem.mp hc
      rw [e]; exact h1 j (by simpa using hj)
    · intro j hj; rw [e]; exact h2 j hj

example : lutQuantize ([-64, 0, 100] : List ℚ) 2 8 (1 / 100000000) (-1) = some (-1) := by
  decide +kernel

/-- C11. The LUT built for weights contains 0, has at most `2^n` entries, and all its entries are
integers, provided k-means returns as many centres as requested. -/
theorem C11_lut_contains_zero (centres : List K) (u n : ℕ) (hlen : centres.length = numClusters u n)
    (hu : 1 ≤ u) :
    ∃ lut, buildLut centres u n = some lut ∧ (0 : K) ∈ lut ∧ lut.length ≤ 2 ^ n ∧
      (∀ c ∈ lut, ∃ k : ℤ, c = k) ∧ ∀ c ∈ lut, c = 0 ∨ ∃ z ∈ centres, c = (npRound z : K) := by
  unfold buildLut
  set cc : List K := centres.map fun c => (npRound c : K) with hcc
  set cc2 : List K := if u < 2 ^ n ∧ ∀ c ∈ cc, c ≠ 0 then (0 : K) :: cc else cc with hcc2
  have hlen2 : cc2.length ≤ 2 ^ n ∧ cc2 ≠ [] := by
    have hl : cc.length = numClusters u n := by rw [hcc]; simpa using hlen
    unfold numClusters at hl
    rw [hcc2]
    by_cases h1 : u < 2 ^ n
    · rw [if_pos h1] at hl
      split_ifs with h
      · refine ⟨by simp; omega, by simp⟩
      · exact ⟨by omega, by intro h0; rw [h0] at hl; simp at hl; omega⟩
    · rw [if_neg h1] at hl
      rw [if_neg (fun h => h1 h.1)]
      refine ⟨hl.le, ?_⟩
      intro h0; rw [h0] at hl; simp at hl
      have := Nat.pos_of_neZero (2 ^ n); omega
  rcases h : argminV (cc2.map fun c => |c - 0|) with _ | ⟨i, v⟩
  · rw [argminV_none] at h; simp at h; exact absurd h hlen2.2
  · obtain ⟨hi, _⟩ := argminV_spec _ _ _ h
    simp only [List.length_map] at hi
    have hent : ∀ c ∈ cc2.set i 0, c = 0 ∨ ∃ z ∈ centres, c = (npRound z : K) := by
      intro c hc
      rcases List.mem_or_eq_of_mem_set hc with hc | hc
      · have : c ∈ (0 : K) :: cc := by
          rw [hcc2] at hc
          split_ifs at hc
          · exact hc
          · exact List.mem_cons_of_mem _ hc
        rcases List.mem_cons.mp this with rfl | hc
        · left; rfl
        · rw [hcc, List.mem_map] at hc
          obtain ⟨z, hz, rfl⟩ := hc
          exact Or.inr ⟨z, hz, rfl⟩
      · left; exact hc
    refine ⟨cc2.set i 0, ?_, ?_, by simpa using hlen2.1, ?_, hent⟩
    · simp only [← hcc2, h]
    · rw [List.mem_iff_getElem]
      exact ⟨i, by simpa using hi, by simp⟩
    · intro c hc
      rcases hent c hc with rfl | ⟨z, _, rfl⟩
      · exact ⟨0, by simp⟩
      · exact ⟨_, rfl⟩

example : ([3, 7] : List ℚ).length = numClusters 2 2 ∧ buildLut ([3, 7] : List ℚ) 2 2 = some [0, 3, 7] := by
  decide +kernel

/-! ## C12: outlier filter -/

/-- C12. Bins are kept or zeroed, nothing else; the number of bins is unchanged. -/
theorem C12_keeps_or_zeroes (z : ℝ) (bins counts : List ℝ) (hl : bins.length = counts.length + 1) :
    List.Forall₂ (fun c c' => c' = c ∨ c' = 0) counts (zScoreFilter z bins counts) := by
  unfold zScoreFilter
  dsimp only
  split_ifs with h0
  · exact List.forall₂_same.mpr (fun _ _ => Or.inl rfl)
  all_goals
    rw [List.forall₂_iff_get]
    refine ⟨by simp [hl], ?_⟩
    intro i h1 h2
    simp only [List.get_eq_getElem, List.getElem_map, List.getElem_zip]
    split_ifs <;> simp

/-- The mean of the histogram (left bin edges weighted by the counts). -/
noncomputable def histMean (bins counts : List ℝ) : ℝ :=
  ((bins.dropLast.zip counts).map fun p => p.1 * p.2).sum / counts.sum

/-- The variance of the histogram. -/
noncomputable def histVar (bins counts : List ℝ) : ℝ :=
  ((bins.dropLast.zip counts).map fun p => (p.1 - histMean bins counts) ^ 2 * p.2).sum / counts.sum

/-- C12. With mass, the `i`-th bin is unchanged if it is within `z` standard deviations of the mean. -/
theorem C12_inside_unchanged (z : ℝ) (bins counts : List ℝ)
    (hl : bins.length = counts.length + 1) (i : ℕ) (hi : i < counts.length)
    (hin : |bins[i] - histMean bins counts| ≤ z * Real.sqrt (histVar bins counts)) :
    (zScoreFilter z bins counts)[i]? = some counts[i] := by
  unfold zScoreFilter
  dsimp only
  change |bins[i] - ((bins.dropLast.zip counts).map fun p => p.1 * p.2).sum / counts.sum| ≤
    z * Real.sqrt (((bins.dropLast.zip counts).map fun p =>
      (p.1 - ((bins.dropLast.zip counts).map fun p => p.1 * p.2).sum / counts.sum) ^ 2 * p.2).sum /
        counts.sum) at hin
  set mu := ((bins.dropLast.zip counts).map fun p => p.1 * p.2).sum / counts.sum
  set sg := Real.sqrt (((bins.dropLast.zip counts).map fun p => (p.1 - mu) ^ 2 * p.2).sum /
    counts.sum)
  have hlen : i < (bins.dropLast.zip counts).length := by simp [hl]; omega
  split_ifs with h0 h1
  · exact List.getElem?_eq_getElem hi
  · rw [List.getElem?_map, List.getElem?_eq_getElem hlen]
    simp only [List.getElem_zip, List.getElem_dropLast, Option.map_some, Option.some.injEq]
    rw [h1, mul_zero] at hin
    have : bins[i] = mu := by
      have := abs_nonpos_iff.mp hin; linarith
    simp [this]
  · rw [List.getElem?_map, List.getElem?_eq_getElem hlen]
    simp only [List.getElem_zip, List.getElem_dropLast, Option.map_some, Option.some.injEq]
    have hs : 0 < sg := lt_of_le_of_ne (Real.sqrt_nonneg _) (Ne.symm h1)
    have : ¬ |bins[i] - mu| / sg > z := by
      rw [gt_iff_lt, not_lt, div_le_iff₀ hs]; exact hin
    rw [if_neg this]

/-- C12. For `z ≥ 1` and a histogram with non-negative counts and positive mass, some bin with a
positive count survives. -/
theorem C12_some_bin_survives (z : ℝ) (hz : 1 ≤ z) (bins counts : List ℝ)
    (hl : bins.length = counts.length + 1) (hnn : ∀ c ∈ counts, 0 ≤ c) (hpos : 0 < counts.sum) :
    ∃ c ∈ zScoreFilter z bins counts, 0 < c := by
  have hzip : (bins.dropLast.zip counts).map Prod.snd = counts := by
    apply List.map_snd_zip; simp [hl]
  set h := bins.dropLast.zip counts with hh
  set mu := histMean bins counts with hmu
  set V := (h.map fun p => (p.1 - mu) ^ 2 * p.2).sum with hV
  have hsumsnd : (h.map Prod.snd).sum = counts.sum := by rw [hzip]
  have hnn' : ∀ p ∈ h, 0 ≤ p.2 := by
    intro p hp
    apply hnn; rw [← hzip]; exact List.mem_map_of_mem hp
  have hVnn : 0 ≤ V := by
    apply List.sum_nonneg
    intro a ha
    obtain ⟨p, hp, rfl⟩ := List.mem_map.mp ha
    exact mul_nonneg (sq_nonneg _) (hnn' p hp)
  -- some bin with positive count lies within one standard deviation
  have key : ∃ p ∈ h, 0 < p.2 ∧ (p.1 - mu) ^ 2 ≤ V / counts.sum := by
    by_contra hcon
    push Not at hcon
    have hcp : ∃ p ∈ h, 0 < p.2 := by
      by_contra hno
      push Not at hno
      have : (h.map Prod.snd).sum ≤ 0 := by
        have := List.sum_le_sum (l := h) (f := Prod.snd) (g := fun _ => (0 : ℝ)) hno
        simpa using this
      rw [hsumsnd] at this; linarith
    have hlt : (h.map fun p => V / counts.sum * p.2).sum < V := by
      rw [hV]
      obtain ⟨p, hp, hp2⟩ := hcp
      apply List.sum_lt_sum
      · intro q hq
        rcases lt_or_eq_of_le (hnn' q hq) with h' | h'
        · exact mul_le_mul_of_nonneg_right (hcon q hq h').le h'.le
        · rw [← h']; simp
      · exact ⟨p, hp, mul_lt_mul_of_pos_right (hcon p hp hp2) hp2⟩
    rw [List.sum_map_mul_left] at hlt
    change V / counts.sum * (h.map Prod.snd).sum < V at hlt
    rw [hsumsnd, div_mul_cancel₀ _ hpos.ne'] at hlt
    exact lt_irrefl _ hlt
  obtain ⟨p, hp, hp2, hpv⟩ := key
  obtain ⟨i, hi, rfl⟩ := List.mem_iff_getElem.mp hp
  have hi' : i < counts.length := by
    rw [hh] at hi; simp at hi; omega
  have hb : |bins[i]'(by omega) - histMean bins counts| ≤ z * Real.sqrt (histVar bins counts) := by
    have e1 : h[i].1 = bins[i]'(by omega) := by simp [hh]
    rw [e1] at hpv
    have := Real.abs_le_sqrt hpv
    refine this.trans ?_
    have hs : (0:ℝ) ≤ Real.sqrt (V / counts.sum) := Real.sqrt_nonneg _
    calc Real.sqrt (V / counts.sum) = 1 * Real.sqrt (V / counts.sum) := by ring
      _ ≤ z * Real.sqrt (V / counts.sum) := mul_le_mul_of_nonneg_right hz hs
  have hun := C12_inside_unchanged z bins counts hl i hi' hb
  refine ⟨counts[i], List.mem_of_getElem? hun, ?_⟩
  have e2 : h[i].2 = counts[i] := by simp [hh]
  rw [← e2]; exact hp2

example : ([0, 1, 2] : List ℝ).length = ([3, 4] : List ℝ).length + 1 ∧ (0 : ℝ) < ([3, 4] : List ℝ).sum := by
  norm_num

/-! ## C13: signedness -/

/-- C13. An explicit setting of the TPC wins; for a bounded activation the sign of the collected
minimum decides; otherwise the activation is signed exactly if a non-empty bin starts below zero. -/
theorem C13_signedness (cfg : Signedness) (bounded : Bool) (minV : K) (bins counts : List K) :
    (cfg = .signed → determineSignedness cfg bounded minV bins counts = true) ∧
    (cfg = .unsigned → determineSignedness cfg bounded minV bins counts = false) ∧
    (cfg = .auto → bounded = true →
      (determineSignedness cfg bounded minV bins counts = true ↔ minV < 0)) ∧
    (cfg = .auto → bounded = false → bins.length = counts.length + 1 →
      (determineSignedness cfg bounded minV bins counts = true ↔
        ∃ i, ∃ (h1 : i < bins.length) (h2 : i < counts.length), 0 < counts[i] ∧ bins[i] < 0)) := by
  refine ⟨by rintro rfl; simp [determineSignedness], by rintro rfl; simp [determineSignedness],
    by rintro rfl rfl; simp [determineSignedness], ?_⟩
  rintro rfl rfl hl
  simp only [determineSignedness, reduceCtorEq, or_self, if_false, Bool.false_eq_true,
    List.any_eq_true, List.mem_filterMap, decide_eq_true_eq]
  constructor
  · rintro ⟨b, ⟨⟨b', c⟩, hmem, hif⟩, hneg⟩
    split_ifs at hif with hc
    injection hif with hif
    dsimp only at hif hc
    subst hif
    obtain ⟨i, hi, e⟩ := List.mem_iff_getElem.mp hmem
    simp only [List.length_zip, List.length_dropLast, hl] at hi
    simp only [List.getElem_zip, List.getElem_dropLast, Prod.mk.injEq] at e
    obtain ⟨rfl, rfl⟩ := e
    exact ⟨i, by omega, by omega, hc, hneg⟩
  · rintro ⟨i, h1, h2, hc, hneg⟩
    refine ⟨bins[i], ⟨(bins[i], counts[i]), ?_, by simp [hc]⟩, hneg⟩
    rw [List.mem_iff_getElem]
    exact ⟨i, by simp; omega, by simp⟩

example : determineSignedness .auto false (0 : ℚ) [-1, 0, 1] [3, 4] = true ∧
    determineSignedness .auto false (0 : ℚ) [-1, 0, 1] [0, 4] = false := by decide +kernel

/-- C08. No threshold is produced for fewer than one bit: every search that starts from the maximum of the
data is rejected. -/
theorem C08_no_bits_rejected (xs : List K) (nIter : ℕ) (minThr : K) (signed perTensor : Bool)
    (err : List (Option K) → List K → K → K) :
    potNoClip xs 0 minThr = none ∧ symNoClip xs 0 minThr = none ∧ uniNoClip xs 0 perTensor = none ∧
      potSearch err xs 0 nIter minThr signed = none := by
  have h : ∀ u, tensorMaxOf xs 0 u = none := by
    intro u
    unfold tensorMaxOf
    split <;> simp [tensorMax]
  refine ⟨by simp [potNoClip, h], by simp [symNoClip, h], ?_, by simp [potSearch, h]⟩
  unfold uniNoClip
  rw [h]
  split <;> simp_all

example : potNoClip [(3 : ℚ), -1] 0 1 = none ∧ potNoClip [(3 : ℚ), -1] 4 1 = some 4 := by decide +kernel

/-- C10. The thresholds a round of the symmetric search tries are evenly spaced from the lower to the upper
scaled end, both included. -/
theorem C10_candidates (start stop : K) (k : ℕ) (hk : 1 ≤ k) :
    let l := (linspace start stop k).1 :: (linspace start stop k).2
    l.length = k + 1 ∧ l.head? = some start ∧ l.getLast? = some stop ∧
      (∀ j : ℕ, j ≤ k → l[j]? = some (start + (j : K) * ((stop - start) / (k : K)))) ∧
      (start ≤ stop → ∀ t ∈ l, start ≤ t ∧ t ≤ stop) := by
  intro l
  have hk0 : (0 : K) < k := by exact_mod_cast hk
  have hget : ∀ j : ℕ, j ≤ k → l[j]? = some (start + (j : K) * ((stop - start) / (k : K))) := by
    intro j hj
    cases j with
    | zero => simp [l, linspace]
    | succ j =>
      have : j < k := by omega
      simp [l, linspace, this]
  have hlen : l.length = k + 1 := by simp [l, linspace]
  refine ⟨hlen, rfl, ?_, hget, ?_⟩
  · rw [List.getLast?_eq_getElem?, hlen]
    have := hget k le_rfl
    simp only [Nat.add_sub_cancel]
    rw [this, mul_div_cancel₀ _ hk0.ne']; simp
  · intro hle t ht
    obtain ⟨j, hj⟩ := List.mem_iff_getElem?.1 ht
    have hjk : j ≤ k := by
      obtain ⟨hj', _⟩ := List.getElem?_eq_some_iff.1 hj
      omega
    rw [hget j hjk] at hj
    simp only [Option.some.injEq] at hj
    have hj0 : (0 : K) ≤ j := Nat.cast_nonneg j
    have hjk' : (j : K) ≤ k := by exact_mod_cast hjk
    have hs : 0 ≤ (stop - start) / (k : K) := div_nonneg (by linarith) hk0.le
    have hkk : (k : K) * ((stop - start) / (k : K)) = stop - start := mul_div_cancel₀ _ hk0.ne'
    rw [← hj]
    constructor
    · nlinarith
    · nlinarith

example : (linspace (1 : ℚ) 3 4) = (1, [3/2, 2, 5/2, 3]) := by decide +kernel

/-- C13. The histogram search uses the signedness it is given; without one it takes the activation as signed
exactly if some bin edge is negative.  Its threshold is, among twice the power of two of the largest bin edge and its halves,
the first one with the least error of the bin edges quantized with that same threshold, or the lower bound if that is larger. -/
theorem C13_histogram_search (err : List (Option K) → K → K) (bins : List K) (n nIter : ℕ) (minThr : K)
    (isSigned : Option Bool) (hb : bins ≠ []) (hit : 1 ≤ nIter) :
    ∃ t s, potHistSearch err bins n nIter minThr isSigned = some (t, s) ∧
      (∀ b, isSigned = some b → s = b) ∧ (isSigned = none → (s = true ↔ ∃ x ∈ bins, x < 0)) ∧
      ∃ m : K, (∃ x ∈ bins, |x| = m) ∧ (∀ x ∈ bins, |x| ≤ m) ∧ ∃ i < nIter,
        t = max (2 * maxPowerOfTwo m minThr / 2 ^ i) minThr ∧
        let e : ℕ → K := fun j => err (bins.map fun x => quantizeTensor x (2 * maxPowerOfTwo m minThr / 2 ^ j) n s)
          (2 * maxPowerOfTwo m minThr / 2 ^ j)
        (∀ j < nIter, e i ≤ e j) ∧ ∀ j < i, e i < e j := by
  unfold potHistSearch
  obtain ⟨m, hm, hmem, hle⟩ := npMax_spec (xs := bins.map abs) (by simpa using hb)
  simp only [hm]
  have hm1 : ∃ x ∈ bins, |x| = m := by simpa using hmem
  have hm2 : ∀ x ∈ bins, |x| ≤ m := fun x hx => hle _ (List.mem_map.2 ⟨x, hx, rfl⟩)
  have key := fun s => argminV_map_range (fun i => err (bins.map fun x => quantizeTensor x
    (2 * maxPowerOfTwo m minThr / 2 ^ i) n s) (2 * maxPowerOfTwo m minThr / 2 ^ i)) nIter hit
  cases isSigned with
  | none =>
    obtain ⟨i, hi, hi1, hi2, hi3⟩ := key (bins.any fun b => decide (b < 0))
    simp only [hi]
    exact ⟨_, _, rfl, by simp, by simp, m, hm1, hm2, i, hi1, rfl, hi2, hi3⟩
  | some b =>
    obtain ⟨i, hi, hi1, hi2, hi3⟩ := key b
    simp only [hi]
    exact ⟨_, _, rfl, by simp, by simp, m, hm1, hm2, i, hi1, rfl, hi2, hi3⟩

example : (potHistSearch (fun q _ => ((q.map fun o => o.getD 0).sum : ℚ)) [0, 1, 2] 2 2 1 none).map Prod.snd = some false ∧
    (potHistSearch (fun q _ => ((q.map fun o => o.getD 0).sum : ℚ)) [-1, 1, 2] 2 2 1 none).map Prod.snd = some true := by
  decide +kernel

end MCT.Search
