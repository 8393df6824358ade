import Verif.Collect.Affine
import Mathlib.Data.Rat.Floor

set_option linter.unusedSectionVars false

/-!
# Property theorems C14–C17, C56 (statistics collectors)
-/

namespace MCT.Collect

open MCT.Quant MCT.Search MCT.CollectSpec

variable {K : Type*} [Field K] [LinearOrder K] [IsStrictOrderedRing K] [FloorRing K]

/-! ## C14: min/max -/

theorem minmax_run {n : ℕ} (bs : List (Batch n K)) (s : MinMax n K)
    (st : Fin n → K × K) (hs : s.state = some st) (pre : List (Batch n K))
    (h : ∀ c, IsGreatest (Observed pre c) (st c).1 ∧ IsLeast (Observed pre c) (st c).2) :
    ∃ st', (bs.foldl MinMax.update s).state = some st' ∧
      ∀ c, IsGreatest (Observed (pre ++ bs) c) (st' c).1 ∧ IsLeast (Observed (pre ++ bs) c) (st' c).2 := by
  induction bs generalizing s st pre with
  | nil => exact ⟨st, hs, by simpa using h⟩
  | cons b bs ih =>
    have key := ih (s.update b) (fun c => (max ((b c).2.foldl max (b c).1) (st c).1,
        min ((b c).2.foldl min (b c).1) (st c).2)) (by simp [MinMax.update, hs]) (pre ++ [b]) ?_
    · simpa using key
    · intro c
      obtain ⟨⟨g1, g2⟩, ⟨l1, l2⟩⟩ := h c
      have hmax := le_foldl_max (b c).2 (b c).1
      have hmin := foldl_min_le (b c).2 (b c).1
      have hin : ∀ v, v ∈ (b c).1 :: (b c).2 → v ∈ Observed (pre ++ [b]) c := fun v hv =>
        ⟨b, by simp, hv⟩
      have hin' : ∀ v, v ∈ Observed pre c → v ∈ Observed (pre ++ [b]) c := by
        rintro v ⟨b', hb', hv⟩; exact ⟨b', by simp [hb'], hv⟩
      have hcases : ∀ v ∈ Observed (pre ++ [b]) c, v ∈ Observed pre c ∨ v ∈ (b c).1 :: (b c).2 := by
        rintro v ⟨b', hb', hv⟩
        rcases List.mem_append.mp hb' with hb' | hb'
        · exact Or.inl ⟨b', hb', hv⟩
        · rw [List.mem_singleton.mp hb'] at hv; exact Or.inr hv
      refine ⟨⟨?_, ?_⟩, ⟨?_, ?_⟩⟩
      · rcases max_choice ((b c).2.foldl max (b c).1) (st c).1 with e | e
        · simp only [e]; exact hin _ (foldl_max_mem _ _)
        · simp only [e]; exact hin' _ g1
      · intro v hv
        rcases hcases v hv with hv | hv
        · exact (g2 hv).trans (le_max_right _ _)
        · refine le_trans ?_ (le_max_left _ _)
          rcases List.mem_cons.mp hv with rfl | hv
          · exact hmax.1
          · exact hmax.2 v hv
      · rcases min_choice ((b c).2.foldl min (b c).1) (st c).2 with e | e
        · simp only [e]; exact hin _ (foldl_min_mem _ _)
        · simp only [e]; exact hin' _ l1
      · intro v hv
        rcases hcases v hv with hv | hv
        · exact (min_le_right _ _).trans (l2 hv)
        · refine le_trans (min_le_left _ _) ?_
          rcases List.mem_cons.mp hv with rfl | hv
          · exact hmin.1
          · exact hmin.2 v hv

/-- C14. After any non-empty history of batches the state of every channel is the greatest and the
least of all the values observed in that channel. -/
theorem C14_per_channel {n : ℕ} (bs : List (Batch n K)) (hne : bs ≠ []) (im ix : Option K) :
    ∃ st, (bs.foldl MinMax.update (MinMax.init im ix)).state = some st ∧
      ∀ c, IsGreatest (Observed bs c) (st c).1 ∧ IsLeast (Observed bs c) (st c).2 := by
  obtain ⟨b, bs, rfl⟩ := List.exists_cons_of_ne_nil hne
  have := minmax_run bs ((MinMax.init im ix).update b)
    (fun c => ((b c).2.foldl max (b c).1, (b c).2.foldl min (b c).1))
    (by simp [MinMax.update, MinMax.init]) [b] ?_
  · simpa using this
  · intro c
    have hmax := le_foldl_max (b c).2 (b c).1
    have hmin := foldl_min_le (b c).2 (b c).1
    refine ⟨⟨⟨b, by simp, foldl_max_mem _ _⟩, ?_⟩, ⟨⟨b, by simp, foldl_min_mem _ _⟩, ?_⟩⟩
    · rintro v ⟨b', hb', hv⟩
      rw [List.mem_singleton.mp hb'] at hv
      rcases List.mem_cons.mp hv with rfl | hv
      · exact hmax.1
      · exact hmax.2 v hv
    · rintro v ⟨b', hb', hv⟩
      rw [List.mem_singleton.mp hb'] at hv
      rcases List.mem_cons.mp hv with rfl | hv
      · exact hmin.1
      · exact hmin.2 v hv

/-- C14. The per-tensor min/max are the extremes over all channels and batches. -/
theorem C14_per_tensor {n : ℕ} (hn : 1 ≤ n) (bs : List (Batch n K)) (hne : bs ≠ [])
    (im ix : Option K) :
    ∃ lo hi, (bs.foldl MinMax.update (MinMax.init im ix)).min = some lo ∧
      (bs.foldl MinMax.update (MinMax.init im ix)).max = some hi ∧
      IsLeast (ObservedAny bs) lo ∧ IsGreatest (ObservedAny bs) hi := by
  obtain ⟨st, hst, h⟩ := C14_per_channel bs hne im ix
  have hfr : List.finRange n ≠ [] := by
    intro h0; have := congrArg List.length h0; simp at this; omega
  obtain ⟨lo, hlo, hlom, hlo'⟩ := npMin_spec (xs := (List.finRange n).map fun c => (st c).2)
    (by simpa using hfr)
  obtain ⟨hi, hhi, hhim, hhi'⟩ := npMax_spec (xs := (List.finRange n).map fun c => (st c).1)
    (by simpa using hfr)
  refine ⟨lo, hi, by simp [MinMax.min, hst, hlo], by simp [MinMax.max, hst, hhi], ⟨?_, ?_⟩, ⟨?_, ?_⟩⟩
  · obtain ⟨c, _, rfl⟩ := List.mem_map.mp hlom
    exact ⟨c, (h c).2.1⟩
  · rintro v ⟨c, hv⟩
    exact (hlo' _ (List.mem_map.mpr ⟨c, List.mem_finRange c, rfl⟩)).trans ((h c).2.2 hv)
  · obtain ⟨c, _, rfl⟩ := List.mem_map.mp hhim
    exact ⟨c, (h c).1.1⟩
  · rintro v ⟨c, hv⟩
    exact ((h c).1.2 hv).trans (hhi' _ (List.mem_map.mpr ⟨c, List.mem_finRange c, rfl⟩))

/-- C14. The order of the batches and the way the data is split into batches do not matter: two
histories with the same observed values give the same state. -/
theorem C14_order_and_partition {n : ℕ} (bs bs' : List (Batch n K)) (hne : bs ≠ []) (hne' : bs' ≠ [])
    (im ix : Option K) (h : ∀ c, Observed bs c = Observed bs' c) :
    (bs.foldl MinMax.update (MinMax.init im ix)).state =
      (bs'.foldl MinMax.update (MinMax.init im ix)).state := by
  obtain ⟨st, hst, h1⟩ := C14_per_channel bs hne im ix
  obtain ⟨st', hst', h2⟩ := C14_per_channel bs' hne' im ix
  rw [hst, hst']
  congr 1
  funext c
  have e1 := (h1 c).1.unique (by rw [h c]; exact (h2 c).1)
  have e2 := (h1 c).2.unique (by rw [h c]; exact (h2 c).2)
  exact Prod.ext e1 e2

/-- C14, instance: permuting the batches. -/
theorem C14_permutation {n : ℕ} (bs bs' : List (Batch n K)) (hp : bs.Perm bs') (hne : bs ≠ [])
    (im ix : Option K) :
    (bs.foldl MinMax.update (MinMax.init im ix)).state =
      (bs'.foldl MinMax.update (MinMax.init im ix)).state := by
  apply C14_order_and_partition bs bs' hne (by rintro rfl; exact hne hp.eq_nil)
  intro c
  ext v
  constructor
  · rintro ⟨b, hb, hv⟩; exact ⟨b, hp.mem_iff.mp hb, hv⟩
  · rintro ⟨b, hb, hv⟩; exact ⟨b, hp.mem_iff.mpr hb, hv⟩

example : ([fun _ => (3, [1]), fun _ => (-2, [5])].foldl MinMax.update
    (MinMax.init (n := 1) (K := ℚ) none none)).values = some (-2, 5) := by decide +kernel

/-! ## C15: mean -/

theorem mean_run {n : ℕ} (bs : List (Batch n K)) (s : Mean n K) :
    (bs.foldl Mean.update s).i = s.i + bs.length ∧
    (∀ c, (bs.foldl Mean.update s).currentSum c = s.currentSum c + (bs.map fun b => rowMean b c).sum) ∧
    (bs ≠ [] → ∀ c, (bs.foldl Mean.update s).currentMean c =
      (s.currentSum c + (bs.map fun b => rowMean b c).sum) / ((s.i + bs.length : ℕ) : K)) := by
  induction bs generalizing s with
  | nil => simp
  | cons b bs ih =>
    obtain ⟨h1, h2, h3⟩ := ih (s.update b)
    refine ⟨?_, ?_, ?_⟩
    · simp only [List.foldl_cons, h1, List.length_cons]; simp [Mean.update]; omega
    · intro c; simp only [List.foldl_cons, h2, List.map_cons, List.sum_cons]
      simp [Mean.update]; ring
    · intro _ c
      cases bs with
      | nil => simp [Mean.update]
      | cons b' bs =>
        rw [List.foldl_cons, h3 (by simp) c]
        simp only [Mean.update, List.map_cons, List.sum_cons, List.length_cons]
        congr 1
        · ring
        · congr 1; omega

/-- C15: a collector that has seen nothing holds the mean zero, so scaling it changes nothing and shifting it gives
the shift. -/
theorem C15_start {n : ℕ} (f : Fin n → K) (c : Fin n) :
    (Mean.init (K := K) (n := n)).currentMean c = 0 ∧ ((Mean.init (K := K) (n := n)).scale f).currentMean c = 0 ∧
      ((Mean.init (K := K) (n := n)).shift f).currentMean c = f c := by
  simp [Mean.init, Mean.scale, Mean.shift]

/-- C15, what holds: after any non-empty history of updates the collected mean of a channel is the
average of the batch means, which is the mean of all the observed values when the batches have equal
sizes.  Missing: batches of different sizes, and scale/shift followed by updates. -/
theorem C15_updates_partial {n : ℕ} (bs : List (Batch n K)) (hne : bs ≠ []) (c : Fin n) :
    (bs.foldl Mean.update Mean.init).currentMean c = mean (bs.map fun b => mean (row b c)) ∧
    (∀ k, (∀ b ∈ bs, (row b c).length = k) →
      (bs.foldl Mean.update Mean.init).currentMean c = mean (valuesOf bs c)) := by
  have h := (mean_run bs Mean.init).2.2 hne c
  have h' : (bs.foldl Mean.update Mean.init).currentMean c = mean (bs.map fun b => mean (row b c)) := by
    rw [h]; simp [mean, Mean.init, rowMean]
  refine ⟨h', ?_⟩
  intro k hk
  rw [h']
  have hlen : ((valuesOf bs c).length : K) = (bs.length : K) * (k : K) := by
    have : (valuesOf bs c).length = bs.length * k := by
      clear h h' hne
      unfold valuesOf
      induction bs with
      | nil => simp
      | cons b bs ih =>
        simp only [List.flatMap_cons, List.length_append,
          ih (fun b hb => hk b (List.mem_cons_of_mem _ hb))]
        have := hk b List.mem_cons_self
        unfold row at this
        rw [this, List.length_cons]; ring
    rw [this]; push_cast; rfl
  have hk0 : (k : K) ≠ 0 := by
    obtain ⟨b, hb⟩ := List.exists_mem_of_ne_nil _ hne
    have := hk b hb
    unfold row at this
    simp at this
    exact_mod_cast (by omega : k ≠ 0)
  have hsum : (bs.map fun b => mean (row b c)).sum = (valuesOf bs c).sum / (k : K) := by
    clear h h' hlen hne
    unfold valuesOf
    induction bs with
    | nil => simp
    | cons b bs ih =>
      simp only [List.map_cons, List.sum_cons, List.flatMap_cons, List.sum_append,
        ih (fun b hb => hk b (List.mem_cons_of_mem _ hb))]
      have := hk b List.mem_cons_self
      simp only [mean, this]
      rw [add_div]; rfl
  unfold mean at hsum ⊢
  rw [hsum, hlen, List.length_map, div_div, mul_comm (k : K)]

example : ([fun _ => (3, [1]), fun _ => (-2, [5])].foldl Mean.update
    (Mean.init (n := 1) (K := ℚ))).currentMean 0 = 7 / 4 := by decide +kernel

/-- C15, what holds: scaling and shifting after the last update gives the mean that would have been
collected from the scaled and shifted data. -/
theorem C15_scale_shift_partial {n : ℕ} (bs : List (Batch n K)) (hne : bs ≠ []) (f g : K) (c : Fin n) :
    (((bs.foldl Mean.update Mean.init).scale fun _ => f).shift fun _ => g).currentMean c =
      ((bs.map (mapBatch fun x => x * f + g)).foldl Mean.update Mean.init).currentMean c := by
  have h1 := (mean_run bs Mean.init).2.2 hne c
  have h2 := (mean_run (bs.map (mapBatch fun x => x * f + g)) Mean.init).2.2 (by simpa using hne) c
  rw [h2]
  simp only [Mean.shift, Mean.scale, h1]
  simp only [Mean.init, zero_add, List.length_map, List.map_map]
  have hl : (bs.length : K) ≠ 0 := by
    have : bs.length ≠ 0 := by simpa using hne
    exact_mod_cast this
  have hrm : ∀ b : Batch n K, rowMean (mapBatch (fun x => x * f + g) b) c = rowMean b c * f + g := by
    intro b
    unfold rowMean row mapBatch
    have hs : ∀ l : List K, (l.map fun x => x * f + g).sum = l.sum * f + l.length * g := by
      intro l
      induction l with
      | nil => simp
      | cons x l ih => simp only [List.map_cons, List.sum_cons, ih, List.length_cons]; push_cast; ring
    have e := hs ((b c).1 :: (b c).2)
    simp only [List.map_cons] at e
    rw [e]
    have hlen : (((b c).1 :: (b c).2).length : K) ≠ 0 := by
      simp only [List.length_cons]; exact Nat.cast_ne_zero.mpr (Nat.succ_ne_zero _)
    simp only [List.length_cons, List.length_map] at hlen ⊢
    field_simp
  have hsum : (bs.map ((fun b => rowMean b c) ∘ mapBatch fun x => x * f + g)).sum =
      (bs.map fun b => rowMean b c).sum * f + bs.length * g := by
    clear h1 h2 hl hne
    induction bs with
    | nil => simp
    | cons b bs ih =>
      simp only [List.map_cons, List.sum_cons, ih, List.length_cons, Function.comp, hrm]
      push_cast; ring
  rw [hsum]
  field_simp

/-- C15 (violated). Batches of different sizes: the collected mean of `[0,0,0]` and `[4]` is 2, the
mean of the data is 1. -/
theorem C15_unequal_batches_violated :
    let bs : List (Batch 1 ℚ) := [fun _ => (0, [0, 0]), fun _ => (4, [])]
    (bs.foldl Mean.update Mean.init).currentMean 0 = 2 ∧ mean (valuesOf bs 0) = 1 := by
  decide +kernel

/-- C15 (violated). A scale or shift of the statistics is lost at the next update, for every history:
the collected mean is as if the earlier statistics had never been scaled. -/
theorem C15_scale_lost_violated {n : ℕ} (s : Mean n K) (f g : Fin n → K) (b : Batch n K) :
    ((s.scale f).shift g).update b = s.update b := rfl

/-! ## C16: histograms -/

/-- C16, what holds: if the histogram is read after the batches were collected, it has the total
count of all the values of all the batches, non-negative counts, sorted edges, and its outer edges
bracket every observed value.  Missing: batches collected after the first read (see below). -/
theorem C16_total_count_partial (n : ℕ) (hn : 1 ≤ n) (bs : List (List K)) (hne : bs ≠ [])
    (hbs : ∀ b ∈ bs, b ≠ []) :
    ∃ s s' bins counts, (Hist.init n).updates bs = some s ∧ s.get = some (s', (bins, counts)) ∧
      counts.sum = ((bs.map List.length).sum : ℕ) ∧ (∀ c ∈ counts, 0 ≤ c) ∧
      bins.length = counts.length + 1 ∧ bins.Pairwise (· ≤ ·) ∧
      ∃ hb : bins ≠ [], ∀ b ∈ bs, ∀ x ∈ b, bins.head hb ≤ x ∧ x ≤ bins.getLast hb := by
  obtain ⟨hs, h1, h2⟩ := updates_spec (Hist.init n) hn bs hbs
  have hwf : ∀ h ∈ hs, WF h := by
    intro h hh
    obtain ⟨i, hi, rfl⟩ := List.mem_iff_getElem.mp hh
    have hi' : i < bs.length := by rw [h1.length_eq]; exact hi
    have e := (List.forall₂_iff_get.mp h1).2 i hi' hi
    obtain ⟨h', e', wf, _⟩ := npHistogram_spec bs[i] (hbs _ (List.getElem_mem _)) n hn
    have : some hs[i] = some h' := e.symm.trans e'
    injection this with this
    rw [this]; exact wf
  have hhs : hs ≠ [] := by
    intro h0; rw [h0] at h1; cases h1; exact hne rfl
  obtain ⟨bins, counts, m1, m2, m3, m4, m5, m6, hb, m7, m8, m9⟩ := merge_spec n hn hs hhs hwf
  refine ⟨_, ⟨n, some (bins, counts), hs, true⟩, bins, counts, h2, ?_, ?_, m3, by rw [m4, m5], m6, hb,
    ?_⟩
  · simp only [Hist.get, Hist.init, List.nil_append, if_true]
    rw [m1]; rfl
  · rw [m2]
    clear m1 m2 m3 m4 m5 m6 m7 m8 m9 hhs hwf h2 hne
    induction h1 with
    | nil => simp
    | cons e h1 ih =>
      rename_i b h bs' hs'
      obtain ⟨h', e', _, hsum, _⟩ := npHistogram_spec b (hbs b (by simp)) n hn
      have : some h = some h' := e.symm.trans e'
      injection this with this
      simp only [List.map_cons, List.sum_cons, ih (fun b hb => hbs b (List.mem_cons_of_mem _ hb))]
      rw [this, hsum]; push_cast; rfl
  · intro b hb' x hx
    obtain ⟨i, hi, rfl⟩ := List.mem_iff_getElem.mp hb'
    have hi' : i < hs.length := by rw [← h1.length_eq]; exact hi
    have e := (List.forall₂_iff_get.mp h1).2 i hi hi'
    obtain ⟨h', e', _, _, hcov⟩ := npHistogram_spec bs[i] (hbs _ (List.getElem_mem _)) n hn
    have : some hs[i] = some h' := e.symm.trans e'
    injection this with this
    obtain ⟨⟨a, ha, hax⟩, ⟨d, hd, hdx⟩⟩ := hcov x hx
    rw [← this] at ha hd
    exact ⟨(m7 _ (List.getElem_mem hi') a ha).1.trans hax,
      hdx.trans (m7 _ (List.getElem_mem hi') d hd).2⟩

example : (((Hist.init (K := ℚ) 2).updates [[0, 1, 2], [4, 4]]).bind Hist.get).map
    (fun r => (r.2.1, r.2.2.sum)) = some ([0, 9 / 4, 9 / 2], 5) := by decide +kernel

/-- C16 (violated). The merge is cached at the first read: whatever batches `bs2` are collected
afterwards, later reads return the same histogram, whose total count is that of `bs1` only. -/
theorem C16_later_batches_ignored_violated (n : ℕ) (hn : 1 ≤ n) (bs1 bs2 : List (List K))
    (hne : bs1 ≠ []) (h1 : ∀ b ∈ bs1, b ≠ []) (h2 : ∀ b ∈ bs2, b ≠ []) :
    ∃ s s' s'' r, (Hist.init n).updates bs1 = some s ∧ s.get = some (s', r) ∧
      s'.updates bs2 = some s'' ∧ s''.get = some (s'', r) ∧
      r.2.sum = ((bs1.map List.length).sum : ℕ) := by
  obtain ⟨s, s', bins, counts, e1, e2, e3, _⟩ := C16_total_count_partial n hn bs1 hne h1
  have hs' : s'.merged = some (bins, counts) ∧ s'.isLegal = true ∧ s'.nBins = s.nBins := by
    unfold Hist.get at e2
    split_ifs at e2 with hl
    split at e2
    · rename_i m hm
      simp only [Option.some.injEq, Prod.mk.injEq] at e2
      obtain ⟨rfl, rfl⟩ := e2
      exact ⟨hm, hl, rfl⟩
    · rcases hmm : mergeHistograms s.nBins s.perIter with _ | m
      · rw [hmm] at e2; exact absurd e2 (by simp)
      · rw [hmm] at e2
        simp only [Option.map_some, Option.some.injEq, Prod.mk.injEq] at e2
        obtain ⟨rfl, rfl⟩ := e2
        exact ⟨rfl, hl, rfl⟩
  have hnb : s.nBins = n := by
    obtain ⟨hs, _, hu⟩ := updates_spec (Hist.init (K := K) n) hn bs1 h1
    rw [e1] at hu; injection hu with hu; rw [hu]; rfl
  obtain ⟨hs2, _, hu2⟩ := updates_spec s' (by rw [hs'.2.2, hnb]; exact hn) bs2 h2
  refine ⟨s, s', _, (bins, counts), e1, e2, hu2, ?_, e3⟩
  simp only [Hist.get, hs'.2.1, if_true, hs'.1]

/-! ## C17: scaling and shifting statistics -/

/-- C17, min/max: shifting (by any amount) and scaling (by a positive factor) the collected state
gives the state collected from the shifted/scaled data. -/
theorem C17_min_max_partial {n : ℕ} (bs : List (Batch n K)) (hne : bs ≠ []) (a b : K) (ha : 0 < a) :
    ∃ s1 s2, (bs.foldl MinMax.update (MinMax.init none none)).scale a = some s1 ∧
      s1.shift b = some s2 ∧
      s2.state = ((bs.map (mapBatch fun x => x * a + b)).foldl MinMax.update
        (MinMax.init none none)).state := by
  obtain ⟨st, hst, h⟩ := C14_per_channel bs hne none none
  obtain ⟨st', hst', h'⟩ := C14_per_channel (bs.map (mapBatch fun x => x * a + b))
    (by simpa using hne) none none
  refine ⟨_, _, by simp only [MinMax.scale, hst]; rfl, by simp only [MinMax.shift]; rfl, ?_⟩
  rw [hst']
  simp only [Option.some.injEq]
  funext c
  have hobs : Observed (bs.map (mapBatch fun x => x * a + b)) c =
      (fun x => x * a + b) '' Observed bs c := by
    ext v; constructor
    · rintro ⟨b', hb', hv⟩
      obtain ⟨b0, hb0, rfl⟩ := List.mem_map.mp hb'
      have hv' : v ∈ ((b0 c).1 :: (b0 c).2).map fun x => x * a + b := hv
      obtain ⟨x, hx, rfl⟩ := List.mem_map.mp hv'
      exact ⟨x, ⟨b0, hb0, hx⟩, rfl⟩
    · rintro ⟨x, ⟨b0, hb0, hx⟩, rfl⟩
      exact ⟨_, List.mem_map.mpr ⟨b0, hb0, rfl⟩, List.mem_map_of_mem (f := fun x => x * a + b) hx⟩
  have hmono : Monotone fun x : K => x * a + b := fun x y hxy => (aff_le (b := b) ha).mpr hxy
  have e1 := (hmono.map_isGreatest (h c).1).unique (by rw [← hobs]; exact (h' c).1)
  have e2 := (hmono.map_isLeast (h c).2).unique (by rw [← hobs]; exact (h' c).2)
  exact Prod.ext e1 e2

/-- C17 (violated), min/max: a negative scale factor swaps the roles, the collected "max" is below
the collected "min" whenever the data is not constant. -/
theorem C17_negative_scale_violated {n : ℕ} (bs : List (Batch n K)) (hne : bs ≠ []) (a : K)
    (ha : a < 0) (c : Fin n) (hvar : ∃ x ∈ Observed bs c, ∃ y ∈ Observed bs c, x ≠ y) :
    ∃ s1 st, (bs.foldl MinMax.update (MinMax.init none none)).scale a = some s1 ∧
      s1.state = some st ∧ (st c).1 < (st c).2 := by
  obtain ⟨st, hst, h⟩ := C14_per_channel bs hne none none
  refine ⟨_, _, by simp only [MinMax.scale, hst]; rfl, rfl, ?_⟩
  obtain ⟨x, hx, y, hy, hxy⟩ := hvar
  have hlt : (st c).2 < (st c).1 := by
    have h1 := (h c).2.2 hx; have h2 := (h c).1.2 hx
    have h3 := (h c).2.2 hy; have h4 := (h c).1.2 hy
    rcases lt_or_gt_of_ne hxy with h5 | h5 <;> linarith
  exact mul_lt_mul_of_neg_right hlt ha

/-- C17, histogram: scaling by a positive factor and shifting the collected histogram gives the
histogram collected from the scaled and shifted data (for a factor other than one no batch may be
constant: numpy widens the range of a constant batch by a fixed ±1/2). -/
theorem C17_histogram_partial (n : ℕ) (hn : 1 ≤ n) (bs : List (List K)) (hne : bs ≠ [])
    (hbs : ∀ b ∈ bs, b ≠ []) (a b : K) (ha : 0 < a)
    (hconst : a = 1 ∨ ∀ l ∈ bs, ∃ x ∈ l, ∃ y ∈ l, x ≠ y) :
    ∃ s s1 s2 t r, (Hist.init n).updates bs = some s ∧ s.scale a = some s1 ∧ s1.shift b = some s2 ∧
      (Hist.init n).updates (bs.map fun l => l.map fun x => x * a + b) = some t ∧
      (s2.get).map Prod.snd = some r ∧ (t.get).map Prod.snd = some r := by
  obtain ⟨s, s', bins, counts, e1, e2, _⟩ := C16_total_count_partial n hn bs hne hbs
  obtain ⟨hs, h1, h2⟩ := updates_spec (Hist.init n) hn bs hbs
  obtain ⟨ht, t1, t2⟩ := updates_spec (Hist.init n) hn (bs.map fun l => l.map fun x => x * a + b)
    (by
      intro l hl
      obtain ⟨l0, hl0, rfl⟩ := List.mem_map.mp hl
      simpa using hbs l0 hl0)
  have hmap : ht = hs.map fun h => (h.1, h.2.map (aff a b)) := by
    apply List.ext_getElem
    · rw [List.length_map, ← h1.length_eq, ← t1.length_eq, List.length_map]
    · intro i hi1 hi2
      have hib : i < bs.length := by
        rw [h1.length_eq]; simpa using hi2
      have ea := (List.forall₂_iff_get.mp h1).2 i hib (by simpa using hi2)
      have eb := (List.forall₂_iff_get.mp t1).2 i (by simpa using hib) hi1
      simp only [List.get_eq_getElem, List.getElem_map] at ea eb ⊢
      have hc : a = 1 ∨ ∃ x ∈ bs[i], ∃ y ∈ bs[i], x ≠ y := by
        rcases hconst with h | h
        · exact Or.inl h
        · exact Or.inr (h _ (List.getElem_mem _))
      have ec := npHistogram_aff (b := b) ha bs[i] (Hist.init (K := K) n).nBins hc
      rw [ea] at ec
      have : bs[i].map (aff a b) = bs[i].map fun x => x * a + b := rfl
      rw [this, eb] at ec
      simpa using ec
  rw [e1] at h2; injection h2 with h2
  have hmerge : mergeHistograms n hs = some (bins, counts) := by
    rw [h2] at e2
    simp only [Hist.get, Hist.init, List.nil_append, if_true] at e2
    rcases hm : mergeHistograms n hs with _ | m
    · rw [hm] at e2; exact absurd e2 (by simp)
    · rw [hm] at e2
      simp only [Option.map_some, Option.some.injEq, Prod.mk.injEq] at e2
      rw [e2.2]
  refine ⟨s, { s' with merged := some (bins.map (· * a), counts) },
    { s' with merged := some ((bins.map (· * a)).map (· + b), counts) }, _,
    ((bins.map (aff a b)), counts), e1, ?_, ?_, t2, ?_, ?_⟩
  · have hl : s.isLegal = true := by rw [h2]; rfl
    simp [Hist.scale, hl, e2]
  · have hl : s'.isLegal = true := by
      rw [h2] at e2
      simp only [Hist.get, Hist.init, List.nil_append, if_true, hmerge] at e2
      simp only [Option.map_some, Option.some.injEq, Prod.mk.injEq] at e2
      rw [← e2.1]
    simp [Hist.shift, Hist.get, hl]
  · have hl : s'.isLegal = true := by
      rw [h2] at e2
      simp only [Hist.get, Hist.init, List.nil_append, if_true, hmerge] at e2
      simp only [Option.map_some, Option.some.injEq, Prod.mk.injEq] at e2
      rw [← e2.1]
    simp [Hist.get, hl, aff, Function.comp_def]
  · simp only [Hist.get, Hist.init, List.nil_append, if_true]
    rw [hmap, merge_aff ha, hmerge]
    rfl

example : (((Hist.init (K := ℚ) 2).updates [[0, 1, 2], [4, 5]]).bind fun s => s.scale 2).bind
    (fun s => s.get.map Prod.snd) =
    ((Hist.init (K := ℚ) 2).updates [[0, 2, 4], [8, 10]]).bind (fun s => s.get.map Prod.snd) := by
  decide +kernel

/-- C17 (violated), histogram: a constant batch.  Scaling the collected histogram of `[1, 1]` by 2
gives edges `1, 3`, collecting from `[2, 2]` gives `3/2, 5/2`. -/
theorem C17_constant_batch_violated :
    (((Hist.init (K := ℚ) 1).updates [[1, 1]]).bind fun s => s.scale 2).bind
      (fun s => s.get.map Prod.snd) = some ([1, 3], [2]) ∧
    ((Hist.init (K := ℚ) 1).updates [[2, 2]]).bind (fun s => s.get.map Prod.snd) =
      some ([3 / 2, 5 / 2], [2]) := by decide +kernel

/-- C17. After a per-channel manipulation of a per-tensor histogram every later read raises, whatever
scalings and shifts come in between. -/
theorem C17_illegal_reads_raise (s : Hist K) (fs : List (Bool × K)) :
    ∃ t, fs.foldlM (fun (s : Hist K) p => if p.1 then s.scale p.2 else s.shift p.2) s.perChannel =
      some t ∧ t.get = none := by
  suffices H : ∀ s : Hist K, s.isLegal = false → ∃ t,
      fs.foldlM (fun (s : Hist K) p => if p.1 then s.scale p.2 else s.shift p.2) s = some t ∧
      t.get = none from H _ rfl
  induction fs with
  | nil => intro s hs; exact ⟨s, rfl, by simp [Hist.get, hs]⟩
  | cons p fs ih =>
    intro s hs
    obtain ⟨t, ht, hg⟩ := ih { s with isLegal := false } rfl
    refine ⟨t, ?_, hg⟩
    rw [List.foldlM_cons]
    have : (if p.1 = true then s.scale p.2 else s.shift p.2) = some { s with isLegal := false } := by
      split_ifs <;> simp [Hist.scale, Hist.shift, hs]
    rw [this]; exact ht

/-! ## C56: weights of the weighted histogram -/

/-- C56, what holds: for weights of the same rank as the tensor, the check accepts exactly the shapes
that numpy can broadcast.  Missing: weights of lower rank. -/
theorem C56_equal_rank_partial (shapeX shapeW : List ℕ) (h : shapeW.length = shapeX.length) :
    weightsAccepted shapeX shapeW = checkBroadcastable shapeX shapeW ∧
    (checkBroadcastable shapeX shapeW = true ↔
      ∀ i (h1 : i < shapeX.length) (h2 : i < shapeW.length),
        shapeX[i] = shapeW[i] ∨ shapeW[i] = 1) := by
  have hb : broadcastOk shapeX (paddedShape shapeX shapeW) = checkBroadcastable shapeX shapeW := by
    simp [broadcastOk, paddedShape, checkBroadcastable, h]
  constructor
  · simp [weightsAccepted, hb]
  · simp only [checkBroadcastable, h, le_refl, decide_true, Bool.true_and, Nat.sub_self,
      List.replicate_zero, List.nil_append, List.all_eq_true, Bool.or_eq_true, decide_eq_true_eq]
    constructor
    · intro hh i h1 h2
      exact hh (shapeX[i], shapeW[i]) (List.mem_iff_getElem.mpr ⟨i, by simp; omega, by simp⟩)
    · rintro hh ⟨a, b⟩ hm
      obtain ⟨i, hi, e⟩ := List.mem_iff_getElem.mp hm
      simp at hi
      simp only [List.getElem_zip, Prod.mk.injEq] at e
      obtain ⟨rfl, rfl⟩ := e
      exact hh i (by omega) (by omega)

/-- C56 (violated). Weights of lower rank: the check pads the shape on the left, the reshape on the
right.  A per-channel weight vector (last axis) passes the check and then fails to broadcast; a
per-sample weight vector that would broadcast after the reshape is rejected. -/
theorem C56_lower_rank_violated :
    (checkBroadcastable [2, 3] [3] = true ∧ weightsAccepted [2, 3] [3] = false) ∧
    (broadcastOk [2, 3] (paddedShape [2, 3] [2]) = true ∧ checkBroadcastable [2, 3] [2] = false) := by
  decide

/-- C14. `get_min_max_values` reports the initial values of the node where they are given, and the extremes of
everything observed otherwise. -/
theorem C14_reported_values {n : ℕ} (hn : 1 ≤ n) (bs : List (Batch n K)) (hne : bs ≠ []) (im ix : Option K) :
    ∃ lo hi, (bs.foldl MinMax.update (MinMax.init im ix)).values = some (im.getD lo, ix.getD hi) ∧
      IsLeast (ObservedAny bs) lo ∧ IsGreatest (ObservedAny bs) hi := by
  obtain ⟨lo, hi, h1, h2, h3, h4⟩ := C14_per_tensor hn bs hne im ix
  have hrun : ∀ (bs : List (Batch n K)) (s : MinMax n K), (bs.foldl MinMax.update s).initMin = s.initMin ∧
      (bs.foldl MinMax.update s).initMax = s.initMax ∧ (bs.foldl MinMax.update s).ignoreInit = s.ignoreInit := by
    intro bs
    induction bs with
    | nil => intro s; exact ⟨rfl, rfl, rfl⟩
    | cons b bs ih =>
      intro s
      obtain ⟨a1, a2, a3⟩ := ih (s.update b)
      have : (s.update b).initMin = s.initMin ∧ (s.update b).initMax = s.initMax ∧
          (s.update b).ignoreInit = s.ignoreInit := by
        unfold MinMax.update; split <;> exact ⟨rfl, rfl, rfl⟩
      exact ⟨a1.trans this.1, a2.trans this.2.1, a3.trans this.2.2⟩
  obtain ⟨r1, r2, r3⟩ := hrun bs (MinMax.init im ix)
  refine ⟨lo, hi, ?_, h3, h4⟩
  unfold MinMax.values
  rw [h1, h2, r1, r2, r3]
  rfl

example : ([fun _ => (3, [1])].foldl MinMax.update (MinMax.init (n := 1) (K := ℚ) (some 0) none)).values =
    some (0, 3) := by decide +kernel

/-- C17. The reported values (initial values of the node included) of a collector scaled by a positive scalar
and shifted are the scaled and shifted reported values. -/
theorem C17_reported_values {n : ℕ} (hn : 1 ≤ n) (bs : List (Batch n K)) (hne : bs ≠ []) (im ix : Option K)
    (a b : K) (ha : 0 < a) :
    ∃ s1 s2 lo hi, (bs.foldl MinMax.update (MinMax.init im ix)).scale a = some s1 ∧ s1.shift b = some s2 ∧
      (bs.foldl MinMax.update (MinMax.init im ix)).values = some (lo, hi) ∧
      s2.values = some (lo * a + b, hi * a + b) := by
  obtain ⟨st, hst, _⟩ := C14_per_channel bs hne im ix
  obtain ⟨lo, hi, h1, h2, _, _⟩ := C14_per_tensor hn bs hne im ix
  generalize hS : bs.foldl MinMax.update (MinMax.init im ix) = S at *
  have hmin : npMin ((List.finRange n).map fun c => (st c).2 * a + b) = some (lo * a + b) := by
    simp only [MinMax.min, hst, Option.bind_some] at h1
    have := npMin_map_mono (fun x : K => x * a + b) (fun x y hxy => (aff_le (b := b) ha).mpr hxy) h1
    simpa [List.map_map, Function.comp_def] using this
  have hmax : npMax ((List.finRange n).map fun c => (st c).1 * a + b) = some (hi * a + b) := by
    simp only [MinMax.max, hst, Option.bind_some] at h2
    have := npMax_map_mono (fun x : K => x * a + b) (fun x y hxy => (aff_le (b := b) ha).mpr hxy) h2
    simpa [List.map_map, Function.comp_def] using this
  by_cases hig : S.ignoreInit = true
  · refine ⟨_, _, lo, hi, by simp only [MinMax.scale, hst]; rfl, by simp only [MinMax.shift]; rfl, ?_, ?_⟩
    · simp [MinMax.values, h1, h2, hig]
    · simp [MinMax.values, MinMax.min, MinMax.max, hmin, hmax, hig]
  · refine ⟨_, _, S.initMin.getD lo, S.initMax.getD hi, by simp only [MinMax.scale, hst]; rfl,
      by simp only [MinMax.shift]; rfl, ?_, ?_⟩
    · simp [MinMax.values, h1, h2, hig]
    · simp only [MinMax.values, MinMax.min, MinMax.max, Option.bind_some, hmin, hmax, hig]
      cases S.initMin <;> cases S.initMax <;> simp

/-- C17. Scaling each channel by its own positive factor gives the extremes of the data scaled that way, and the
initial values of the node are no longer reported. -/
theorem C17_per_channel_scale {n : ℕ} (hn : 1 ≤ n) (bs : List (Batch n K)) (hne : bs ≠ []) (im ix : Option K)
    (f : Fin n → K) (hf : ∀ c, 0 < f c) :
    ∃ s lo hi, (bs.foldl MinMax.update (MinMax.init im ix)).scaleVec f = some s ∧ s.values = some (lo, hi) ∧
      IsLeast {v | ∃ c, ∃ x ∈ Observed bs c, v = x * f c} lo ∧
      IsGreatest {v | ∃ c, ∃ x ∈ Observed bs c, v = x * f c} hi := by
  obtain ⟨st, hst, h⟩ := C14_per_channel bs hne im ix
  have hfr : List.finRange n ≠ [] := by
    intro h0; have := congrArg List.length h0; simp at this; omega
  obtain ⟨lo, hlo, hlom, hlo'⟩ := npMin_spec (xs := (List.finRange n).map fun c => (st c).2 * f c)
    (by simpa using hfr)
  obtain ⟨hi, hhi, hhim, hhi'⟩ := npMax_spec (xs := (List.finRange n).map fun c => (st c).1 * f c)
    (by simpa using hfr)
  refine ⟨_, lo, hi, by simp only [MinMax.scaleVec, hst]; rfl, ?_, ⟨?_, ?_⟩, ⟨?_, ?_⟩⟩
  · simp [MinMax.values, MinMax.min, MinMax.max, hlo, hhi]
  · obtain ⟨c, _, rfl⟩ := List.mem_map.mp hlom
    exact ⟨c, _, (h c).2.1, rfl⟩
  · rintro v ⟨c, x, hx, rfl⟩
    exact (hlo' _ (List.mem_map.mpr ⟨c, List.mem_finRange c, rfl⟩)).trans
      (mul_le_mul_of_nonneg_right ((h c).2.2 hx) (hf c).le)
  · obtain ⟨c, _, rfl⟩ := List.mem_map.mp hhim
    exact ⟨c, _, (h c).1.1, rfl⟩
  · rintro v ⟨c, x, hx, rfl⟩
    exact le_trans (mul_le_mul_of_nonneg_right ((h c).1.2 hx) (hf c).le)
      (hhi' _ (List.mem_map.mpr ⟨c, List.mem_finRange c, rfl⟩))

example : (((([fun _ => (3, [1])] : List (Batch 1 ℚ)).foldl MinMax.update (MinMax.init (some 0) none)).scaleVec
    fun _ => 2).bind MinMax.values) = some (2, 6) := by decide +kernel

end MCT.Collect
