import Verif.PerChan.Hmse

/-!
# C131: parameters selected by the Hessian-weighted error

What a user relies on: with the HMSE error, the parameter of each channel is the candidate with the
smallest error of that channel, every squared difference weighted by the score of its element.

Specification: `channel`, `IsIndex` and `LeastCoveringPow2` as in C130 and C07, and `quantErr` and
`rowOrder` below.
-/

namespace MCT.PerChan

open MCT.Quant MCT.Search MCT.SearchSpec

variable {K : Type} [Field K] [LinearOrder K] [IsStrictOrderedRing K] [FloorRing K]

/-! ### Specification -/

/-- The error of the element at an index when channel `c` is quantized with threshold `T c`. -/
def quantErr (x : Tensor K) (ax n : ℕ) (T : ℕ → K) (idx : List ℕ) : K :=
  x.get idx - (quantizeTensor (x.get idx) (T (idx.getD ax 0)) n true).getD 0

/-- The indices channel after channel. -/
def rowOrder (shape : List ℕ) (ax : ℕ) : List (List ℕ) :=
  (List.range (shape.getD ax 0)).flatMap fun c => (indices shape).filter fun i => i.getD ax 0 == c

/-! ### Lemmas -/

theorem channels_flatten (x : Tensor K) (ax : ℕ) :
    (channels x ax).flatten = (rowOrder x.shape ax).map x.get := by
  unfold channels rowOrder channel
  rw [List.map_flatMap, List.flatMap_def]

theorem mem_rowOrder {shape : List ℕ} {ax : ℕ} (hax : ax < shape.length) {idx : List ℕ} :
    idx ∈ rowOrder shape ax ↔ IsIndex shape idx := by
  unfold rowOrder
  simp only [List.mem_flatMap, List.mem_range, List.mem_filter, mem_indices, beq_iff_eq]
  constructor
  · rintro ⟨c, _, h, _⟩; exact h
  · intro h
    exact ⟨_, isIndex_getD h ax hax, h, rfl⟩

theorem getD_of_mem_rowOrder {shape : List ℕ} {ax : ℕ} {idx : List ℕ} (h : idx ∈ rowOrder shape ax) :
    idx.getD ax 0 < shape.getD ax 0 := by
  unfold rowOrder at h
  simp only [List.mem_flatMap, List.mem_range, List.mem_filter, beq_iff_eq] at h
  obtain ⟨c, hc, _, rfl⟩ := h
  exact hc

theorem rowOrder_zero (shape : List ℕ) (h : shape ≠ []) : rowOrder shape 0 = indices shape := by
  cases shape with
  | nil => exact absurd rfl h
  | cons d ds =>
    unfold rowOrder
    conv_rhs => rw [indices]
    simp only [List.getD_cons_zero]
    apply List.flatMap_congr
    intro c hc
    rw [filter_indices (d :: ds) 0 c (by simp) (by simpa using hc)]
    simp

theorem map_getD_range (ts : List K) (m : ℕ) (h : ts.length = m) :
    (List.range m).map (fun c => ts.getD c 0) = ts := by
  apply List.ext_getElem
  · simp [h]
  · intro i h1 h2
    simp [List.getD_eq_getElem?_getD, h2]

theorem zipWith_map_same {α β γ δ : Type} (f : β → γ → δ) (a : α → β) (b : α → γ) (l : List α) :
    List.zipWith f (l.map a) (l.map b) = l.map fun c => f (a c) (b c) := by
  induction l with
  | nil => rfl
  | cons c l ih => simp [ih]

theorem quantRows_eq (x : Tensor K) (ax n : ℕ) (ts : List K) (h : ts.length = x.shape.getD ax 0) :
    quantRows (channels x ax) ts n =
      (rowOrder x.shape ax).map fun i => quantizeTensor (x.get i) (ts.getD (i.getD ax 0) 0) n true := by
  unfold quantRows channels
  rw [← map_getD_range ts _ h, zipWith_map_same, map_getD_range ts _ h]
  unfold rowOrder
  rw [List.map_flatMap, List.flatMap_def]
  congr 1
  apply List.map_congr_left
  intro c _
  unfold channel
  rw [List.map_map]
  apply List.map_congr_left
  intro i hi
  have : i.getD ax 0 = c := by simpa using (List.mem_filter.1 hi).2
  rw [Function.comp_apply, this]

theorem mapM_id_map_some {α : Type} (f : α → Option K) (l : List α) (h : ∀ a ∈ l, (f a).isSome) :
    (l.map f).mapM id = some (l.map fun a => (f a).getD 0) := by
  induction l with
  | nil => rfl
  | cons a l ih =>
    rw [List.map_cons, List.mapM_cons, ih fun b hb => h b (List.mem_cons_of_mem _ hb)]
    obtain ⟨v, hv⟩ := Option.isSome_iff_exists.1 (h a List.mem_cons_self)
    simp [hv]

theorem weightedMean_eq (w : List K) (x : Tensor K) (l : List (List ℕ)) (q : List ℕ → K) :
    weightedMean w (l.map x.get) (l.map q) =
      (List.zipWith (fun a i => (a * (x.get i - q i)) ^ 2) w l).sum / (l.length : K) := by
  unfold weightedMean
  rw [zipWith_map_same, List.zipWith_map_right, List.length_map]

theorem squareMean_pos (x : Tensor K) (ax : ℕ) (hax : ax < x.shape.length)
    (h : ∃ idx, IsIndex x.shape idx ∧ x.get idx ≠ 0) :
    0 < squareMean (channels x ax).flatten := by
  obtain ⟨idx, hi, hx⟩ := h
  unfold squareMean
  rw [channels_flatten]
  have hmem := (mem_rowOrder hax).2 hi
  apply div_pos
  · have h1 : 0 ≤ x.get idx ^ 2 := sq_nonneg _
    have h2 : 0 < x.get idx ^ 2 := by positivity
    refine lt_of_lt_of_le h2 (List.single_le_sum ?_ _ ?_)
    · intro v hv
      obtain ⟨a, _, rfl⟩ := List.mem_map.1 hv
      exact sq_nonneg _
    · exact List.mem_map.2 ⟨_, List.mem_map.2 ⟨idx, hmem, rfl⟩, rfl⟩
  · have := List.length_pos_of_mem hmem
    simp only [List.length_map]
    exact_mod_cast this

theorem checkScores_some {w x : Tensor K} {u : Unit} (h : checkScores w x = some u) :
    (ravel w).length = (ravel x).length := by
  unfold checkScores at h
  by_contra hc
  rw [if_neg hc] at h
  simp at h

theorem foldBest_mem {P : Type} (loss : P → Loss K) (c0 : P) (cs : List P) :
    (foldBest loss c0 cs).param ∈ c0 :: cs := by
  unfold foldBest
  suffices H : ∀ b : Best P K,
      (cs.foldl (fun b p => b.update p (loss p)) b).param ∈ b.param :: cs from H _
  induction cs with
  | nil => intro b; simp
  | cons c cs ih =>
    intro b
    rw [List.foldl_cons]
    have := ih (b.update c (loss c))
    rcases List.mem_cons.1 this with h | h
    · rw [h]
      unfold Best.update
      dsimp only
      split <;> simp
    · exact List.mem_cons_of_mem _ (List.mem_cons_of_mem _ h)

theorem argBest_mem {P : Type} (loss : P → Loss K) (c0 : P) (cs : List P) :
    (argBest loss c0 cs).param ∈ c0 :: cs := by
  induction cs generalizing c0 with
  | nil => simp [argBest]
  | cons c cs ih =>
    simp only [argBest]
    split
    · simp
    · exact List.mem_cons_of_mem _ (ih c)

/-- A property of the parameters that the candidates inherit holds for the result of the search. -/
theorem iterRounds_param {m : ℕ} {P S : Type} (Q : P → Prop) (cands : S → P → P × List P)
    (hc : ∀ s p, Q p → ∀ p' ∈ (cands s p).1 :: (cands s p).2, Q p') (loss : Fin m → P → Loss K)
    (next : ℕ → S → S) (tol : K) (k n : ℕ) (st : IterState m P S K)
    (h : ∀ c, Q (st.curr c) ∧ Q (st.best c).param) :
    ∀ c, Q ((iterRounds cands foldBest loss next tol k n st).curr c) ∧
      Q ((iterRounds cands foldBest loss next tol k n st).best c).param := by
  induction k generalizing n st with
  | zero => exact h
  | succ k ih =>
    simp only [iterRounds]
    have step : ∀ c, Q (foldBest (loss c) (cands st.sched (st.curr c)).1
        (cands st.sched (st.curr c)).2).param ∧
        Q ((st.best c).update (foldBest (loss c) (cands st.sched (st.curr c)).1
          (cands st.sched (st.curr c)).2).param (foldBest (loss c) (cands st.sched (st.curr c)).1
          (cands st.sched (st.curr c)).2).loss).param := by
      intro c
      have h1 := hc st.sched (st.curr c) (h c).1 _ (foldBest_mem (loss c) _ _)
      refine ⟨h1, ?_⟩
      unfold Best.update
      dsimp only
      split
      · exact h1
      · exact (h c).2
    split
    · exact step
    · exact ih _ _ step

theorem bcast_vec {P : Type} [Zero P] (x : Tensor K) (ax : ℕ) (v : List P)
    (hl : v.length = x.shape.getD ax 0) (idx : List ℕ) (hi : IsIndex x.shape idx)
    (hax : ax < x.shape.length) :
    bcast (ofChannels x.shape.length ax v 0) idx = v.getD (idx.getD ax 0) 0 :=
  bcast_ofChannels _ _ _ _ _ hi.length_eq hax (by rw [hl]; exact isIndex_getD hi ax hax)

theorem axis_lt {x : Tensor K} {ax : ℕ} (h : x.shape.getD ax 0 ≠ 0) : ax < x.shape.length := by
  by_contra hc
  exact h (by simp [List.getD_eq_getElem?_getD, List.getElem?_eq_none (Nat.le_of_not_lt hc)])

/-- What is computed from every channel. -/
theorem mapM_channels {P : Type} {f : List K → Option P} {x : Tensor K} {ax : ℕ} {ms : List P}
    (h : (channels x ax).mapM f = some ms) :
    ms.length = x.shape.getD ax 0 ∧
      ∀ c (hc : c < ms.length), f (channel x ax c) = some ms[c] := by
  have hF := (Common.mapM_some_iff _ _ _).1 h
  have hl : ms.length = x.shape.getD ax 0 := by rw [← hF.length_eq, channels_length]
  refine ⟨hl, ?_⟩
  intro c hc
  have hc' : c < (channels x ax).length := by rw [hF.length_eq]; exact hc
  have := List.Forall₂.get hF hc' hc
  simpa [channels] using this

/-! ### Power-of-two thresholds, per channel -/

/-- C131, what the code does. The thresholds of all the channels are their own no-clipping thresholds
divided by one and the same power of two, and that power minimises a sum over the whole array in which
the scores, in the order of the array, are multiplied with the errors in the order channel after channel. -/
theorem C131_common_shift (w x : Tensor K) (ax n nIter : ℕ) (minThr : K) (hn : 2 ≤ n) (hmin : 0 < minThr)
    (t : Tensor K) (h : hmsePot w x ax n nIter minThr = some t) :
    ∃ i < nIter, ∃ T : ℕ → K,
      (∀ c < x.shape.getD ax 0, LeastCoveringPow2 (T c) minThr n (channel x ax c)) ∧
      (∀ idx, IsIndex x.shape idx → bcast t idx = max (2 * T (idx.getD ax 0) / 2 ^ i) minThr) ∧
      ((∃ idx, IsIndex x.shape idx ∧ x.get idx ≠ 0) → ∀ j < nIter,
        (List.zipWith (fun a b => (w.get a * quantErr x ax n (fun c => 2 * T c / 2 ^ i) b) ^ 2)
          (indices w.shape) (rowOrder x.shape ax)).sum ≤
        (List.zipWith (fun a b => (w.get a * quantErr x ax n (fun c => 2 * T c / 2 ^ j) b) ^ 2)
          (indices w.shape) (rowOrder x.shape ax)).sum) := by
  unfold hmsePot at h
  obtain ⟨_, hcs, h⟩ := Option.bind_eq_some_iff.1 h
  obtain ⟨rows, hr, h⟩ := Option.bind_eq_some_iff.1 h
  obtain ⟨ms, hms, h⟩ := Option.bind_eq_some_iff.1 h
  obtain ⟨h0, rfl⟩ := (toRows_some_iff _ _ _).1 hr
  have hax := axis_lt h0
  obtain ⟨hl, hmc⟩ := mapM_channels hms
  cases nIter with
  | zero => simp at h
  | succ k =>
    simp only [Option.some.injEq] at h
    set ts := ms.map fun m => 2 * maxPowerOfTwo m minThr with hts
    set i := (argBest (hmsePotLoss w (channels x ax) ts n) 0 ((List.range k).map fun j => j + 1)).param
      with hi
    have htl : ts.length = x.shape.getD ax 0 := by rw [hts, List.length_map, hl]
    have hpos : ∀ m : K, 0 < maxPowerOfTwo m minThr := fun m =>
      isPow2_pos (C06_least_pow2 m minThr hmin).1
    have hT : ∀ c, c < x.shape.getD ax 0 → ts.getD c 0 = 2 * maxPowerOfTwo (ms.getD c 0) minThr := by
      intro c hc
      have h1 : c < ms.length := by rw [hl]; exact hc
      simp [hts, List.getD_eq_getElem?_getD, h1]
    refine ⟨i, ?_, fun c => maxPowerOfTwo (ms.getD c 0) minThr, ?_, ?_, ?_⟩
    · have := argBest_mem (hmsePotLoss w (channels x ax) ts n) 0 ((List.range k).map fun j => j + 1)
      rw [← hi] at this
      simp only [List.mem_cons, List.mem_map, List.mem_range] at this
      rcases this with h | ⟨j, hj, h⟩ <;> omega
    · intro c hc
      have h1 : c < ms.length := by rw [hl]; exact hc
      have h2 := hmc c h1
      have hne : channel x ax c ≠ [] := by
        intro he; rw [he] at h2; simp [tensorMaxOf, npMin] at h2
      obtain ⟨m, hm, _, hcov⟩ := tensorMaxOf_covers hne (by omega : 1 ≤ n)
      rw [hm] at h2
      have h3 : ms.getD c 0 = m := by
        simp only [Option.some.injEq] at h2
        simp [List.getD_eq_getElem?_getD, h1, h2]
      dsimp only
      rw [h3]
      obtain ⟨p1, p2, p3, p4⟩ := C06_least_pow2 m minThr hmin
      have hc := hcov hn
      refine ⟨⟨p1, (le_max_right _ _).trans p2,
        (hc _ (isPow2_pos p1)).mpr ((le_max_left _ _).trans p2)⟩, ?_⟩
      intro t ht hlo hcv
      exact p4 t ht (max_le ((hc t (isPow2_pos ht)).mp hcv) hlo)
    · intro idx hidx
      have hlt := isIndex_getD hidx ax hax
      rw [← h, bcast_vec x ax _ (by rw [List.length_map, htl]) idx hidx hax]
      have h1 : idx.getD ax 0 < ts.length := by rw [htl]; exact hlt
      dsimp only
      rw [← hT _ hlt, List.getD_eq_getElem?_getD, List.getElem?_map, List.getElem?_eq_getElem h1,
        List.getD_eq_getElem?_getD (l := ts), List.getElem?_eq_getElem h1]
      rfl
    · intro hx j hj
      have hsp := squareMean_pos x ax hax hx
      have hF : ∀ i, hmsePotLoss w (channels x ax) ts n i = .fin
          ((List.zipWith (fun a b => (w.get a * quantErr x ax n
            (fun c => 2 * maxPowerOfTwo (ms.getD c 0) minThr / 2 ^ i) b) ^ 2)
          (indices w.shape) (rowOrder x.shape ax)).sum / ((rowOrder x.shape ax).length : K) /
            squareMean (channels x ax).flatten) := by
        intro i
        unfold hmsePotLoss hmseLoss
        have hq : quantRows (channels x ax) (ts.map fun T => T / 2 ^ i) n =
            (rowOrder x.shape ax).map fun b => quantizeTensor (x.get b)
              (2 * maxPowerOfTwo (ms.getD (b.getD ax 0) 0) minThr / 2 ^ i) n true := by
          rw [quantRows_eq x ax n _ (by rw [List.length_map, htl])]
          apply List.map_congr_left
          intro b hb
          have hlt := getD_of_mem_rowOrder hb
          have h1 : b.getD ax 0 < ts.length := by rw [htl]; exact hlt
          rw [← hT _ hlt, List.getD_eq_getElem?_getD, List.getElem?_map, List.getElem?_eq_getElem h1,
            List.getD_eq_getElem?_getD (l := ts), List.getElem?_eq_getElem h1]
          rfl
        rw [hq, mapM_id_map_some]
        · dsimp only
          rw [if_pos rfl, if_neg (ne_of_gt hsp), channels_flatten, weightedMean_eq]
          unfold ravel
          rw [List.zipWith_map_left]
          rfl
        · intro b _
          rw [quantizeTensor_signed _ (by omega)]
          · rfl
          · have := hpos (ms.getD (b.getD ax 0) 0)
            positivity
      have hEq : hmsePotLoss w (channels x ax) ts n = fun i => .fin
          ((List.zipWith (fun a b => (w.get a * quantErr x ax n
            (fun c => 2 * maxPowerOfTwo (ms.getD c 0) minThr / 2 ^ i) b) ^ 2)
          (indices w.shape) (rowOrder x.shape ax)).sum / ((rowOrder x.shape ax).length : K) /
            squareMean (channels x ax).flatten) := funext hF
      obtain ⟨_, _, hle⟩ := argBest_ok (K := K) (P := ℕ) (fun i =>
          ((List.zipWith (fun a b => (w.get a * quantErr x ax n
            (fun c => 2 * maxPowerOfTwo (ms.getD c 0) minThr / 2 ^ i) b) ^ 2)
          (indices w.shape) (rowOrder x.shape ax)).sum / ((rowOrder x.shape ax).length : K) /
            squareMean (channels x ax).flatten)) 0 ((List.range k).map fun j => j + 1)
      rw [← hEq, ← hi] at hle
      have hj' : j ∈ 0 :: (List.range k).map fun j => j + 1 := by
        cases j with
        | zero => simp
        | succ j =>
          refine List.mem_cons_of_mem _ (List.mem_map.2 ⟨j, ?_, rfl⟩)
          rw [List.mem_range]; omega
      have h5 := hle j hj'
      have hlen : 0 < ((rowOrder x.shape ax).length : K) := by
        obtain ⟨idx, hi1, _⟩ := hx
        exact_mod_cast List.length_pos_of_mem ((mem_rowOrder hax).2 hi1)
      exact (div_le_div_iff_of_pos_right hlen).1 ((div_le_div_iff_of_pos_right hsp).1 h5)

/-- C131. With the channels along the first dimension (the order of the channels is then that of the array)
the common power of two minimises the error of the whole array, every element weighted by its score. -/
theorem C131_first_axis_partial (w x : Tensor K) (n nIter : ℕ) (minThr : K) (hn : 2 ≤ n)
    (hmin : 0 < minThr) (hw : w.shape = x.shape) (t : Tensor K)
    (h : hmsePot w x 0 n nIter minThr = some t) (hx : ∃ idx, IsIndex x.shape idx ∧ x.get idx ≠ 0) :
    ∃ i < nIter, ∃ T : ℕ → K,
      (∀ c < x.shape.getD 0 0, LeastCoveringPow2 (T c) minThr n (channel x 0 c)) ∧
      (∀ idx, IsIndex x.shape idx → bcast t idx = max (2 * T (idx.getD 0 0) / 2 ^ i) minThr) ∧
      ∀ j < nIter,
        ((indices x.shape).map fun a =>
          w.get a ^ 2 * quantErr x 0 n (fun c => 2 * T c / 2 ^ i) a ^ 2).sum ≤
        ((indices x.shape).map fun a =>
          w.get a ^ 2 * quantErr x 0 n (fun c => 2 * T c / 2 ^ j) a ^ 2).sum := by
  obtain ⟨i, hi, T, h1, h2, h3⟩ := C131_common_shift w x 0 n nIter minThr hn hmin t h
  have hne : x.shape ≠ [] := by
    intro he
    unfold hmsePot at h
    obtain ⟨_, _, h⟩ := Option.bind_eq_some_iff.1 h
    obtain ⟨rows, hr, _⟩ := Option.bind_eq_some_iff.1 h
    obtain ⟨h0, _⟩ := (toRows_some_iff _ _ _).1 hr
    rw [he] at h0
    simp at h0
  refine ⟨i, hi, T, h1, h2, ?_⟩
  intro j hj
  have h4 := h3 hx j hj
  rw [rowOrder_zero _ hne, hw] at h4
  have hz : ∀ (f : List ℕ → List ℕ → K) (l : List (List ℕ)),
      List.zipWith f l l = l.map fun a => f a a := by
    intro f l
    induction l with
    | nil => rfl
    | cons a l ih => simp [ih]
  rw [hz, hz] at h4
  simpa only [mul_pow] using h4

/-- An array of shape `[2, 2]` given by its rows. -/
def mat (a b c d : ℚ) : Tensor ℚ :=
  { shape := [2, 2], get := fun i => if i = [0, 0] then a else if i = [0, 1] then b
      else if i = [1, 0] then c else d }

/-- C131 is false of the code: a channel does not get the threshold with its smallest weighted error.
Here only the value `1/4` of channel 0 has a score in that channel; the threshold `2` chosen for it rounds
it to zero, while `1/2`, which is among the thresholds tried for the channel, is exact. -/
theorem C131_own_channel_violated :
    (hmsePot (mat 0 1 1 1) (mat 1 (1 / 4) 1 1) 0 2 10 (1 / 65536)).map ravel = some [2, 2] ∧
    LeastCoveringPow2 (2 : ℚ) (1 / 65536) 2 (channel (mat 1 (1 / 4) 1 1) 0 0) ∧
    quantErr (mat 1 (1 / 4) 1 1) 0 2 (fun _ => 2) [0, 1] = 1 / 4 ∧
    quantErr (mat 1 (1 / 4) 1 1) 0 2 (fun _ => 2 * 2 / 2 ^ 3) [0, 1] = 0 := by
  refine ⟨by decide +kernel, ?_, by decide +kernel, by decide +kernel⟩
  refine ⟨⟨⟨1, by norm_num⟩, by norm_num, ?_⟩, ?_⟩
  · intro v hv
    have : v = 1 ∨ v = 1 / 4 := by
      have hc : channel (mat 1 (1 / 4) 1 1) 0 0 = [1, 1 / 4] := by decide +kernel
      rw [hc] at hv; simpa using hv
    rcases this with rfl | rfl <;> norm_num
  · intro t ht _ hc
    have h1 : (1 : ℚ) ∈ channel (mat 1 (1 / 4) 1 1) 0 0 := by decide +kernel
    have h2 := (hc 1 h1).2
    norm_num at h2
    linarith

/-- C131 is false of the code: with the channels along another dimension than the first, the scores
weight the errors of other elements.  Here only the element at `[0, 1]` has a score; the search makes
the error at `[1, 0]` vanish, and the threshold it gives to `[0, 1]` has an error of `3/4`, although the
threshold `2`, which was tried, is exact. -/
theorem C131_other_axis_violated :
    (hmsePot (mat 0 1 0 0) (mat 1 1 (1 / 4) 1) 1 2 10 (1 / 65536)).map ravel = some [1 / 2, 1 / 2] ∧
    quantErr (mat 1 1 (1 / 4) 1) 1 2 (fun _ => 1 / 2) [0, 1] = 3 / 4 ∧
    quantErr (mat 1 1 (1 / 4) 1) 1 2 (fun _ => 1 / 2) [1, 0] = 0 ∧
    quantErr (mat 1 1 (1 / 4) 1) 1 2 (fun _ => 2 * 2 / 2 ^ 1) [0, 1] = 0 := by
  refine ⟨by decide +kernel, by decide +kernel, by decide +kernel, by decide +kernel⟩

example : (hmsePot (mat 1 1 1 1) (mat 1 (1 / 4) 1 1) 0 2 10 (1 / 65536)).isSome ∧
    IsIndex (mat 1 (1 / 4) 1 1).shape [0, 1] ∧ (mat 1 (1 / 4) 1 1).get [0, 1] ≠ 0 := by
  refine ⟨by decide +kernel, by simp [IsIndex, mat], by decide +kernel⟩

/-! ### Power-of-two threshold, per tensor -/

/-- C131. Per tensor the threshold is the candidate with the smallest mean of the squared differences, each
weighted by its score (the square of `w`). -/
theorem C131_per_tensor (w x : Tensor K) (n nIter : ℕ) (minThr : K) (hn : 2 ≤ n) (hit : 1 ≤ nIter)
    (hmin : 0 < minThr) (hw : w.shape = x.shape) (hx : ∀ d ∈ x.shape, d ≠ 0) :
    ∃ T i, LeastCoveringPow2 T minThr n (ravel x) ∧
      hmsePotTensor w x n nIter minThr = some (max (2 * T / 2 ^ i) minThr) ∧
      FirstArgmin (fun j => ((indices x.shape).map fun a => w.get a ^ 2 * (x.get a -
          (quantizeTensor (x.get a) (2 * T / 2 ^ j) n true).getD 0) ^ 2).sum /
        ((ravel x).length : K)) nIter i := by
  have hne : ravel x ≠ [] := by
    rw [← List.length_pos_iff]
    unfold ravel
    rw [List.length_map, length_indices]
    exact List.prod_pos fun d hd => Nat.pos_of_ne_zero (hx d hd)
  obtain ⟨T, i, t, e, h1, _, _, _, h5, h6, h7, _⟩ := C07_per_tensor
    (fun q f _ => weightedMean (ravel w) (q.map fun v => v.getD 0) f) (ravel x) n nIter minThr true hne
    (by omega) hit hmin
  refine ⟨T, i, h5 hn, ?_, ?_⟩
  · unfold hmsePotTensor checkScores
    rw [if_pos (by simp [ravel, hw]), Option.bind_some, h1, h7]; rfl
  · have he : ∀ j, weightedMean (ravel w)
        (((ravel x).map fun v => quantizeTensor v (2 * T / 2 ^ j) n true).map fun v => v.getD 0)
        (ravel x) = ((indices x.shape).map fun a => w.get a ^ 2 * (x.get a -
          (quantizeTensor (x.get a) (2 * T / 2 ^ j) n true).getD 0) ^ 2).sum /
        ((ravel x).length : K) := by
      intro j
      unfold weightedMean ravel
      rw [hw, List.map_map, List.map_map, zipWith_map_same, zipWith_map_same, List.length_map,
        List.length_map]
      congr 2
      apply List.map_congr_left
      intro a _
      simp only [Function.comp_apply]
      ring
    simpa only [he] using h6

example : (∀ d ∈ (mat 1 (1 / 4) 1 1).shape, d ≠ 0) ∧ (mat 1 0 0 0).shape = (mat 1 (1 / 4) 1 1).shape ∧
    hmsePotTensor (mat 1 0 0 0) (mat 1 (1 / 4) 1 1) 2 10 (1 / 65536) = some 2 ∧
    hmsePotTensor (mat 0 1 0 0) (mat 1 (1 / 4) 1 1) 2 10 (1 / 65536) = some (1 / 2) := by
  decide +kernel

/-! ### Symmetric thresholds and uniform ranges, per channel -/

/-- C131, what the code does. The symmetric thresholds of all the channels are one and the same multiple of
their no-clipping thresholds, before the floor. -/
theorem C131_symmetric_common (w x : Tensor K) (ax n nIntervals nIter : ℕ) (alpha beta : K) (f : K × K)
    (decFreq : ℕ) (bottom upper tol minThr : K) (t : Tensor K)
    (h : hmseSym w x ax n nIntervals nIter alpha beta f decFreq bottom upper tol minThr = some t) :
    ∃ a : K, ∀ idx, IsIndex x.shape idx → ∃ T, symNoClip (channel x ax (idx.getD ax 0)) n minThr = some T ∧
      bcast t idx = max minThr (a * T) := by
  unfold hmseSym at h
  obtain ⟨_, _, h⟩ := Option.bind_eq_some_iff.1 h
  obtain ⟨rows, hr, h⟩ := Option.bind_eq_some_iff.1 h
  obtain ⟨ms, hms, h⟩ := Option.map_eq_some_iff.1 h
  obtain ⟨h0, rfl⟩ := (toRows_some_iff _ _ _).1 hr
  have hax := axis_lt h0
  obtain ⟨hl, hmc⟩ := mapM_channels hms
  obtain ⟨a, ha⟩ : ∃ a : K, ((hmseSymIter (ravel w) (channels x ax) (ms.map fun m => max minThr m) n
      nIntervals nIter alpha beta f decFreq bottom upper tol).best 0).param =
      ms.map fun m => a * max minThr m := by
    unfold hmseSymIter
    dsimp only
    refine (iterRounds_param (fun v => ∃ a : K, v = ms.map fun m => a * max minThr m) _ ?_ _ _ _ _ _ _ ?_
      0).2
    · rintro s _ ⟨a, rfl⟩ v hv
      simp only [vecLinspace, List.mem_cons, List.mem_map, List.mem_range] at hv
      rcases hv with rfl | ⟨i, _, rfl⟩
      · refine ⟨a * s.1, ?_⟩
        rw [List.map_map]
        apply List.map_congr_left
        intro m _
        simp only [Function.comp_apply]; ring
      · refine ⟨a * s.1 + ((i + 1 : ℕ) : K) * ((a * s.2 - a * s.1) / ((nIntervals - 1 : ℕ) : K)), ?_⟩
        rw [List.map_map]
        apply List.map_congr_left
        intro m _
        simp only [Function.comp_apply]; ring
    · intro c
      refine ⟨⟨1, ?_⟩, ⟨1, ?_⟩⟩ <;> simp [iterInit]
  refine ⟨a, ?_⟩
  intro idx hidx
  have hlt := isIndex_getD hidx ax hax
  have h1 : idx.getD ax 0 < ms.length := by rw [hl]; exact hlt
  refine ⟨max minThr ms[idx.getD ax 0], ?_, ?_⟩
  · unfold symNoClip
    rw [hmc _ h1]; rfl
  · rw [← h, ha, bcast_vec x ax _ (by simp [hl]) idx hidx hax, List.getD_eq_getElem?_getD,
      List.getElem?_map, List.getElem?_map, List.getElem?_eq_getElem h1]
    rfl

/-- C131 is false of the code for symmetric thresholds too: at most one multiple for two channels that
need different ones.  In both channels the first value needs the threshold of the channel itself
and in channel 0 only the second value counts, for which half the threshold is exact. -/
theorem C131_symmetric_violated :
    (hmseSym (mat 0 1 1 1) (mat 1 (1 / 4) 1 1) 0 2 4 1 (1 / 4) 1 (1, 1) 1 1 1 (1 / 100)
      (1 / 65536)).map ravel = some [2, 2] ∧
    quantErr (mat 1 (1 / 4) 1 1) 0 2 (fun _ => 2) [0, 1] = 1 / 4 ∧
    quantErr (mat 1 (1 / 4) 1 1) 0 2 (fun _ => 1 / 4 * 2) [0, 1] = 0 := by
  decide +kernel

/-- Specification: the range `q` is `r`, except that a range of one value gets zero as its other end. -/
def Widened (r q : K × K) : Prop :=
  (r.1 ≠ r.2 → q = r) ∧ (r.1 = r.2 → 0 < r.1 → q = (0, r.2)) ∧ (r.1 = r.2 → r.1 < 0 → q = (r.1, 0)) ∧
    (r.1 = r.2 → r.1 = 0 → q = r)

theorem adjustRange_widened (r : K × K) : Widened r (adjustRange r) := by
  obtain ⟨a, b⟩ := r
  unfold Widened adjustRange
  simp only
  refine ⟨fun h => ?_, fun h h0 => ?_, fun h h0 => ?_, fun h h0 => ?_⟩
  · rw [if_neg (fun e => h e.1.symm), if_neg (fun e => h e.1.symm)]
  · rw [if_pos ⟨h.symm, h0⟩, if_neg (fun e => by rw [h] at h0; exact absurd e.2 (not_lt.mpr h0.le))]
  · rw [if_neg (fun e => absurd e.2 (not_lt.mpr h0.le)), if_pos ⟨h.symm, by rw [← h]; exact h0⟩]
  · subst h; subst h0; simp

theorem uniform_common_adjust (w x : Tensor K) (ax n : ℕ) (sc0 : K × K) (scs : List (K × K)) (nIter : ℕ)
    (tol : K) (t : Tensor (K × K)) (h : hmseUni w x ax n sc0 scs nIter tol = some t) :
    ∃ a b : K, ∀ idx, IsIndex x.shape idx → ∃ lo hi,
      (lo ∈ channel x ax (idx.getD ax 0) ∧ ∀ v ∈ channel x ax (idx.getD ax 0), lo ≤ v) ∧
      (hi ∈ channel x ax (idx.getD ax 0) ∧ ∀ v ∈ channel x ax (idx.getD ax 0), v ≤ hi) ∧
      bcast t idx = adjustRange (lo * a, max (-lo) hi * b) := by
  unfold hmseUni at h
  obtain ⟨_, _, h⟩ := Option.bind_eq_some_iff.1 h
  obtain ⟨rows, hr, h⟩ := Option.bind_eq_some_iff.1 h
  obtain ⟨ms, hms, h⟩ := Option.map_eq_some_iff.1 h
  obtain ⟨h0, rfl⟩ := (toRows_some_iff _ _ _).1 hr
  have hax := axis_lt h0
  obtain ⟨hl, hmc⟩ := mapM_channels hms
  obtain ⟨a, b, ha⟩ : ∃ a b : K, ((hmseUniIter (ravel w) (channels x ax) ms n sc0 scs nIter
      tol).best 0).param = ms.map fun p => (p.1 * a, p.2 * b) := by
    unfold hmseUniIter
    dsimp only
    refine (iterRounds_param (fun v => ∃ a b : K, v = ms.map fun p => (p.1 * a, p.2 * b)) _ ?_ _ _ _ _ _ _
      ?_ 0).2
    · rintro s _ ⟨a, b, rfl⟩ v hv
      simp only [vecScale, List.mem_cons, List.mem_map] at hv
      rcases hv with rfl | ⟨s, _, rfl⟩
      · refine ⟨a * sc0.1, b * sc0.2, ?_⟩
        rw [List.map_map]
        apply List.map_congr_left
        intro p _
        simp only [Function.comp_apply, mul_assoc]
      · refine ⟨a * s.1, b * s.2, ?_⟩
        rw [List.map_map]
        apply List.map_congr_left
        intro p _
        simp only [Function.comp_apply, mul_assoc]
    · intro c
      refine ⟨⟨1, 1, ?_⟩, ⟨1, 1, ?_⟩⟩ <;> simp [iterInit]
  refine ⟨a, b, ?_⟩
  intro idx hidx
  have hlt := isIndex_getD hidx ax hax
  have h1 : idx.getD ax 0 < ms.length := by rw [hl]; exact hlt
  have h2 := hmc _ h1
  have h3 : bcast t idx = adjustRange (ms[idx.getD ax 0].1 * a, ms[idx.getD ax 0].2 * b) := by
    rw [← h, ha, bcast_vec x ax _ (by simp [hl]) idx hidx hax, List.getD_eq_getElem?_getD,
      List.getElem?_map, List.getElem?_map, List.getElem?_eq_getElem h1]
    rfl
  have hne := List.ne_nil_of_mem (mem_channel x ax idx hidx)
  obtain ⟨lo, l1, l2, l3⟩ := npMin_spec hne
  obtain ⟨hi, u1, u2, u3⟩ := npMax_spec hne
  unfold minMaxOf at h2
  rw [l1, Option.bind_some] at h2
  simp only [tensorMaxOf, l1, u1] at h2
  refine ⟨lo, hi, ⟨l2, l3⟩, ⟨u2, u3⟩, ?_⟩
  obtain ⟨m, h5, h4⟩ := Option.map_eq_some_iff.1 h2
  rw [h3, ← h4]
  have h6 : m = max (-lo) hi := by
    unfold tensorMax at h5
    split at h5
    · simp at h5
    · simpa using h5.symm
  rw [h6]

/-- C131, what the code does. The uniform ranges of all the channels are their no-clipping ranges with both
ends scaled by the same two factors (the upper end of the no-clipping range is at least minus the lower
one); a range of one value gets zero as its other end. -/
theorem C131_uniform_common (w x : Tensor K) (ax n : ℕ) (sc0 : K × K) (scs : List (K × K)) (nIter : ℕ)
    (tol : K) (t : Tensor (K × K)) (h : hmseUni w x ax n sc0 scs nIter tol = some t) :
    ∃ a b : K, ∀ idx, IsIndex x.shape idx → ∃ lo hi,
      (lo ∈ channel x ax (idx.getD ax 0) ∧ ∀ v ∈ channel x ax (idx.getD ax 0), lo ≤ v) ∧
      (hi ∈ channel x ax (idx.getD ax 0) ∧ ∀ v ∈ channel x ax (idx.getD ax 0), v ≤ hi) ∧
      Widened (lo * a, max (-lo) hi * b) (bcast t idx) := by
  obtain ⟨a, b, hab⟩ := uniform_common_adjust w x ax n sc0 scs nIter tol t h
  refine ⟨a, b, fun idx hidx => ?_⟩
  obtain ⟨lo, hi, h1, h2, h3⟩ := hab idx hidx
  exact ⟨lo, hi, h1, h2, h3 ▸ adjustRange_widened _⟩

theorem mapM_id_none {l : List (Option K)} (h : none ∈ l) : l.mapM id = none := by
  rcases hm : l.mapM id with _ | r
  · rfl
  · have hF := (Common.mapM_some_iff _ _ _).1 hm
    obtain ⟨i, hi, he⟩ := List.getElem_of_mem h
    have := List.Forall₂.get hF hi (by rw [← hF.length_eq]; exact hi)
    simp only [List.get_eq_getElem, id, he] at this
    simp at this

theorem iterRounds_nan {P S : Type} (cands : S → P → P × List P)
    (inner : (P → Loss K) → P → List P → Best P K) (loss : Fin 1 → P → Loss K)
    (next : ℕ → S → S) (tol : K) (k n : ℕ) (st : IterState 1 P S K) (h : (st.best 0).loss = .nan) :
    ((iterRounds cands inner loss next tol k n st).best 0).param = (st.best 0).param := by
  induction k generalizing n st with
  | zero => rfl
  | succ k ih =>
    simp only [iterRounds]
    have hlt : ∀ l : Loss K, l.lt .nan = false := by intro l; cases l <;> rfl
    have h1 : ∀ p l, ((st.best 0).update p l).param = (st.best 0).param ∧
        ((st.best 0).update p l).loss = .nan := by
      intro p l
      unfold Best.update
      rw [h]
      dsimp only
      rw [hlt]
      refine ⟨by simp, ?_⟩
      unfold Loss.blend
      cases l <;> rfl
    split
    · exact (h1 _ _).1
    · rw [ih _ _ (h1 _ _).2]
      exact (h1 _ _).1

/-- C131 is false of the code: one channel with a single value that is not negative (an empty range, for
which quantization gives NaN) switches the search off, and every channel keeps its no-clipping range. -/
theorem C131_constant_channel_violated (w x : Tensor K) (ax n : ℕ) (sc0 : K × K)
    (scs : List (K × K)) (nIter : ℕ) (tol : K) (t : Tensor (K × K))
    (h : hmseUni w x ax n sc0 scs nIter tol = some t) (c : ℕ) (hc : c < x.shape.getD ax 0) (v : K)
    (hv0 : 0 ≤ v) (hv : ∀ u ∈ channel x ax c, u = v) (idx : List ℕ) (hidx : IsIndex x.shape idx) :
    ∃ lo hi, (lo ∈ channel x ax (idx.getD ax 0) ∧ ∀ v ∈ channel x ax (idx.getD ax 0), lo ≤ v) ∧
      (hi ∈ channel x ax (idx.getD ax 0) ∧ ∀ v ∈ channel x ax (idx.getD ax 0), v ≤ hi) ∧
      Widened (lo, max (-lo) hi) (bcast t idx) := by
  unfold hmseUni at h
  obtain ⟨_, _, h⟩ := Option.bind_eq_some_iff.1 h
  obtain ⟨rows, hr, h⟩ := Option.bind_eq_some_iff.1 h
  obtain ⟨ms, hms, h⟩ := Option.map_eq_some_iff.1 h
  obtain ⟨h0, rfl⟩ := (toRows_some_iff _ _ _).1 hr
  have hax := axis_lt h0
  obtain ⟨hl, hmc⟩ := mapM_channels hms
  have range : ∀ c (hc : c < ms.length), ∃ lo hi, (lo ∈ channel x ax c ∧ ∀ v ∈ channel x ax c, lo ≤ v) ∧
      (hi ∈ channel x ax c ∧ ∀ v ∈ channel x ax c, v ≤ hi) ∧ ms[c] = (lo, max (-lo) hi) := by
    intro c hc
    have h2 := hmc _ hc
    have hne : channel x ax c ≠ [] := by
      intro he; rw [he] at h2; simp [minMaxOf, npMin] at h2
    obtain ⟨lo, l1, l2, l3⟩ := npMin_spec hne
    obtain ⟨hi, u1, u2, u3⟩ := npMax_spec hne
    refine ⟨lo, hi, ⟨l2, l3⟩, ⟨u2, u3⟩, ?_⟩
    unfold minMaxOf at h2
    rw [l1, Option.bind_some] at h2
    simp only [tensorMaxOf, l1, u1] at h2
    obtain ⟨m, h5, h4⟩ := Option.map_eq_some_iff.1 h2
    rw [← h4]
    unfold tensorMax at h5
    split at h5
    · simp at h5
    · have : max (-lo) hi = m := by simpa using h5
      rw [this]
  have hcl : c < ms.length := by rw [hl]; exact hc
  have hnan : hmseLoss true (ravel w) (channels x ax).flatten (quantRowsUni (channels x ax) ms n) =
      .nan := by
    unfold hmseLoss
    rw [mapM_id_none]
    obtain ⟨lo, hi, ⟨h1, _⟩, ⟨h2, _⟩, h3⟩ := range c hcl
    have e1 := hv lo h1
    have e2 := hv hi h2
    subst e1
    subst e2
    rw [max_eq_right (by linarith)] at h3
    unfold quantRowsUni
    refine List.mem_flatten.2 ⟨(channel x ax c).map fun u => uniformQuantize u ms[c].1 ms[c].2 n, ?_, ?_⟩
    · have hcc : c < (channels x ax).length := by rw [channels_length]; exact hc
      refine List.mem_iff_getElem.2 ⟨c, by simp [hcl, hcc], ?_⟩
      simp [channels]
    · refine List.mem_map.2 ⟨_, h1, ?_⟩
      rw [h3]
      simp [uniformQuantize]
  have hp : ((hmseUniIter (ravel w) (channels x ax) ms n sc0 scs nIter tol).best 0).param = ms := by
    unfold hmseUniIter
    dsimp only
    rw [iterRounds_nan _ _ _ _ _ _ _ _ hnan]
    rfl
  have hlt := isIndex_getD hidx ax hax
  have h1 : idx.getD ax 0 < ms.length := by rw [hl]; exact hlt
  obtain ⟨lo, hi, h2, h3, h4⟩ := range _ h1
  refine ⟨lo, hi, h2, h3, ?_⟩
  suffices e : bcast t idx = adjustRange (lo, max (-lo) hi) from e ▸ adjustRange_widened _
  rw [← h, hp, bcast_vec x ax _ (by simp [hl]) idx hidx hax, List.getD_eq_getElem?_getD,
    List.getElem?_map, List.getElem?_eq_getElem h1, ← h4]
  rfl

/-- The hypotheses are met: channel 1 is constant, and channel 0 keeps its range. -/
example : (hmseUni (mat 0 1 1 1) (mat (-1) (1 / 4) 1 1) 0 2 (1 / 4, 1 / 4) [(1, 1)] 1 (1 / 100)).map ravel =
      some [(-1, 1), (0, 1)] ∧
    (hmseUni (mat 0 1 1 1) (mat (-1) (1 / 4) 1 0) 0 2 (1 / 4, 1 / 4) [(1, 1)] 1 (1 / 100)).isSome ∧
    channel (mat (-1) (1 / 4) 1 1) 0 1 = [1, 1] ∧ (1 : ℕ) < (mat (-1) (1 / 4) 1 1).shape.getD 0 0 := by
  decide +kernel

end MCT.PerChan
