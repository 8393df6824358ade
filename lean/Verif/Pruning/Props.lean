import Verif.Pruning.Lemmas
import Mathlib.Tactic.NormNum

set_option linter.unusedSectionVars false

/-!
# Property theorems C40–C42, C59, C60 (pruning masks)
-/

namespace MCT.Pruning

open MCT.PruningSpec

variable {K : Type*} [LinearOrder K] {T : Type*} [LinearOrder T]

/-! ## C40: the pruned model fits the target -/

/-- C40. With any memory function: `compute_mask` reports "insufficient memory" exactly when even the
smallest mask (the first group of each layer) exceeds the target; otherwise it ends, within a number of
rounds that depends on the groups only, in a mask whose memory is at most the target. -/
theorem C40_fits_or_reported {N : ℕ} {groups : ℕ → List (List ℕ)} {nch : ℕ → ℕ}
    (hp : Partition N groups nch) (scores : ℕ → ℕ → K) (mem : (ℕ → List Bool) → T) (target : T)
    (fuel : ℕ) (hfuel : ((List.range N).map fun i => (groups i).length).sum + 1 ≤ fuel)
    (smallest : ℕ → List Bool) (hsm : smallest = (Masks.init N groups nch).chan) :
    KeepsGroups N groups nch smallest (fun _ => 1) ∧
    (target < mem smallest → computeMask N groups nch scores mem target fuel = .error .insufficient) ∧
    (mem smallest ≤ target → ∃ st, computeMask N groups nch scores mem target fuel = .ok st ∧
      mem st.chan ≤ target) := by
  subst hsm
  refine ⟨?_, ?_, ?_⟩
  · intro i hi
    rw [init_eq]
    have := keepsGroups_state N groups nch (fun i => if i < N then 1 else 0) i hi
    simp only [if_pos hi] at this
    exact this
  · intro h
    rcases computeMask_spec hp scores mem target fuel hfuel with ⟨_, h2⟩ | ⟨h1, _⟩
    · exact h2
    · exact absurd h (not_lt.mpr h1)
  · intro h
    rcases computeMask_spec hp scores mem target fuel hfuel with ⟨h1, _⟩ | ⟨_, k, h2, _, h3, _⟩
    · exact absurd h1 (not_lt.mpr h)
    · exact ⟨_, h2, h3⟩

/-- C40, how much is kept: the result keeps every channel, or uses the target exactly, or adding the next
group of the layer whose next group has the highest score would exceed the target. -/
theorem C40_greedy_maximal {N : ℕ} {groups : ℕ → List (List ℕ)} {nch : ℕ → ℕ}
    (hp : Partition N groups nch) (scores : ℕ → ℕ → K) (mem : (ℕ → List Bool) → T) (target : T)
    (fuel : ℕ) (hfuel : ((List.range N).map fun i => (groups i).length).sum + 1 ≤ fuel) (st : Masks)
    (h : computeMask N groups nch scores mem target fuel = .ok st) :
    (∀ i < N, ∀ c < nch i, Keeps st.chan i c) ∨ mem st.chan = target ∨
    ∃ (k : ℕ → ℕ), KeepsGroups N groups nch st.chan k ∧
      ∃ i < N, k i < (groups i).length ∧
        (∀ j < N, k j < (groups j).length → scores j (k j) ≤ scores i (k i)) ∧
        ∃ mask', KeepsGroups N groups nch mask' (fun j => if j = i then k i + 1 else k j) ∧
          target < mem mask' := by
  rcases computeMask_spec hp scores mem target fuel hfuel with ⟨_, h2⟩ | ⟨_, k, h2, h3, h4, h5⟩
  · rw [h2] at h; exact absurd h (by simp)
  · rw [h2] at h
    injection h with h
    subst h
    rcases h5 with h5 | h5 | ⟨i, hi, ho, hbest, hmem⟩
    · left
      intro i hi c hc
      rw [((keepsGroups_state N groups nch k) i hi).2 c hc]
      by_contra hcon
      have : (stateOf groups nch k).hasPruned N = true := by
        rw [hasPruned_state]
        exact ⟨i, hi, c, hc, fun g hg hm => hcon ⟨g, hg, hm⟩⟩
      rw [this] at h5; exact absurd h5 (by simp)
    · exact Or.inr (Or.inl h5)
    · refine Or.inr (Or.inr ⟨k, keepsGroups_state N groups nch k, i, hi, ho.2, ?_, _, ?_, hmem⟩)
      · intro j hj hlt
        exact hbest j hj ⟨by have := (h3 j hj).1; omega, hlt⟩
      · intro j hj
        have := keepsGroups_state N groups nch (upd k i (k i + 1)) j hj
        exact this

/-! ## C41: whole groups, at least the first one -/

/-- C41. In the final mask each layer keeps exactly the channels of its first `k ≥ 1` groups: whole groups
only, the first (most important) group always, and no group without all the more important ones. -/
theorem C41_whole_groups {N : ℕ} {groups : ℕ → List (List ℕ)} {nch : ℕ → ℕ}
    (hp : Partition N groups nch) (scores : ℕ → ℕ → K) (mem : (ℕ → List Bool) → T) (target : T)
    (fuel : ℕ) (hfuel : ((List.range N).map fun i => (groups i).length).sum + 1 ≤ fuel) (st : Masks)
    (h : computeMask N groups nch scores mem target fuel = .ok st) :
    ∃ k : ℕ → ℕ, (∀ i < N, 1 ≤ k i ∧ k i ≤ (groups i).length) ∧ KeepsGroups N groups nch st.chan k := by
  rcases computeMask_spec hp scores mem target fuel hfuel with ⟨_, h2⟩ | ⟨_, k, h2, h3, _, _⟩
  · rw [h2] at h; exact absurd h (by simp)
  · rw [h2] at h
    injection h with h
    subst h
    exact ⟨k, h3, keepsGroups_state N groups nch k⟩

/-- Two layers with three and two groups; memory counts the kept channels. -/
def exGroups : ℕ → List (List ℕ) := fun i => if i = 0 then [[2, 0], [1, 4], [3]] else [[1], [0]]

/-- Number of channels of the example layers. -/
def exNch : ℕ → ℕ := fun i => if i = 0 then 5 else 2

/-- Memory of the example: 4 bytes per kept channel. -/
def exMem (m : ℕ → List Bool) : ℕ := 4 * ((m 0).count true + (m 1).count true)

/-- Scores of the example groups. -/
def exScores (i g : ℕ) : ℕ := if i = 0 then 10 - g else 9 - 2 * g

/-- The hypotheses hold; 23 bytes keep two groups of layer 0 and one of layer 1 (a third group of layer 0
would take 24); 11 bytes are not enough for the first groups. -/
example : Partition 2 exGroups exNch ∧
    (computeMask 2 exGroups exNch exScores exMem 23 6).map (fun st => (st.chan 0, st.chan 1)) =
      .ok ([true, true, true, false, true], [false, true]) ∧
    (computeMask 2 exGroups exNch exScores exMem 11 6).map (fun st => (st.chan 0, st.chan 1)) =
      .error .insufficient := by
  refine ⟨?_, by decide +kernel, by decide +kernel⟩
  intro i hi
  match i with
  | 0 => exact ⟨by decide, by decide⟩
  | 1 => exact ⟨by decide, by decide⟩
  | i + 2 => omega

/-! ## C42: grouping by importance -/

theorem flatten_slices (l : List ℕ) (s q : ℕ) :
    ((List.range q).map fun i => (l.drop (i * s)).take s).flatten = l.take (q * s) := by
  induction q with
  | zero => simp
  | succ q ih =>
    rw [List.range_succ, List.map_append, List.flatten_append, ih, Nat.succ_mul, List.take_add]
    simp

/-- C42. For every importance sort and every SIMD size at least one: the groups partition the channels;
every group but the last has exactly the SIMD size and the last has at most that; a channel in an earlier
group is at least as important as a channel in a later group. -/
theorem C42_groups (score : ℕ → K) (n simd : ℕ) (hs : 1 ≤ simd) (sorted : List ℕ)
    (hperm : sorted.Perm (List.range n)) (hsort : sorted.Pairwise fun a b => score b ≤ score a) :
    ∃ gs, groupChannels sorted simd = some gs ∧ gs.flatten.Perm (List.range n) ∧
      (∀ g ∈ gs.dropLast, g.length = simd) ∧ (∀ g ∈ gs, 1 ≤ g.length ∧ g.length ≤ simd) ∧
      ∀ (i j : ℕ) (gi gj : List ℕ), i < j → gs[i]? = some gi → gs[j]? = some gj →
        ∀ a ∈ gi, ∀ b ∈ gj, score b ≤ score a := by
  have hdiv := Nat.div_add_mod sorted.length simd
  have hmod := Nat.mod_lt sorted.length (by omega : 0 < simd)
  set q := sorted.length / simd with hq
  set r := sorted.length % simd with hr
  have hslice : ∀ i < q, ((sorted.drop (i * simd)).take simd).length = simd := by
    intro i hi
    rw [List.length_take, List.length_drop]
    have : (i + 1) * simd ≤ q * simd := Nat.mul_le_mul_right _ hi
    have e : q * simd = simd * q := Nat.mul_comm _ _
    have e2 : (i + 1) * simd = i * simd + simd := Nat.succ_mul _ _
    omega
  -- order of a list whose flattening is sorted
  have horder : ∀ gs : List (List ℕ), gs.flatten = sorted →
      ∀ (i j : ℕ) (gi gj : List ℕ), i < j → gs[i]? = some gi → gs[j]? = some gj →
        ∀ a ∈ gi, ∀ b ∈ gj, score b ≤ score a := by
    intro gs hgs i j gi gj hij hi hj a ha b hb
    rw [← hgs, List.pairwise_flatten] at hsort
    obtain ⟨hi', rfl⟩ := List.getElem?_eq_some_iff.mp hi
    obtain ⟨hj', rfl⟩ := List.getElem?_eq_some_iff.mp hj
    exact List.pairwise_iff_getElem.mp hsort.2 i j hi' hj' hij a ha b hb
  unfold groupChannels
  rw [if_neg (by omega)]
  simp only [← hq, ← hr]
  by_cases hr0 : r ≠ 0
  · have hflat : (((List.range q).map fun i => (sorted.drop (i * simd)).take simd) ++
        [sorted.drop (sorted.length - r)]).flatten = sorted := by
      rw [List.flatten_append, flatten_slices]
      have : sorted.length - r = q * simd := by rw [Nat.mul_comm]; omega
      rw [this]
      simp
    refine ⟨_, rfl, ?_, ?_, ?_, ?_⟩
    · rw [if_pos hr0, hflat]; exact hperm
    · rw [if_pos hr0, List.dropLast_concat]
      intro g hg
      obtain ⟨i, hi, rfl⟩ := List.mem_map.mp hg
      exact hslice i (List.mem_range.mp hi)
    · rw [if_pos hr0]
      intro g hg
      rcases List.mem_append.mp hg with hg | hg
      · obtain ⟨i, hi, rfl⟩ := List.mem_map.mp hg
        rw [hslice i (List.mem_range.mp hi)]; omega
      · rw [List.mem_singleton.mp hg, List.length_drop]
        omega
    · rw [if_pos hr0]
      exact horder _ hflat
  · have hr0' : r = 0 := by omega
    have hflat : ((List.range q).map fun i => (sorted.drop (i * simd)).take simd).flatten = sorted := by
      rw [flatten_slices, Nat.mul_comm, List.take_of_length_le (by omega)]
    refine ⟨_, rfl, ?_, ?_, ?_, ?_⟩
    · rw [if_neg hr0, hflat]; exact hperm
    · rw [if_neg hr0]
      intro g hg
      obtain ⟨i, hi, rfl⟩ := List.mem_map.mp (List.dropLast_subset _ hg)
      exact hslice i (List.mem_range.mp hi)
    · rw [if_neg hr0]
      intro g hg
      obtain ⟨i, hi, rfl⟩ := List.mem_map.mp hg
      rw [hslice i (List.mem_range.mp hi)]; omega
    · rw [if_neg hr0]
      exact horder _ hflat

example : [2, 0, 1, 4, 3].Perm (List.range 5) ∧
    ([2, 0, 1, 4, 3] : List ℕ).Pairwise (fun a b => ([7, 5, 9, 1, 5].getD b 0 : ℕ) ≤ [7, 5, 9, 1, 5].getD a 0) ∧
    groupChannels [2, 0, 1, 4, 3] 2 = some [[2, 0], [1, 4], [3]] ∧ groupChannels [0, 1] 0 = none := by
  refine ⟨by decide, by decide, by decide, by decide⟩

/-! ## C59: the group scores do not follow the order of the groups -/

/-- C59 is false of the code: groups are formed and unpruned in the order of the channel scores, but the
score of a group multiplies the sum of the Hessian scores by the sum of the norms, so a later group can
have a higher score than the first one, which is kept unconditionally. -/
theorem C59_group_order_violated :
    ∃ (hess l2 np : ℕ → ℚ), ([0, 1, 2, 3] : List ℕ).Pairwise
        (fun a b => channelScore hess l2 np b ≤ channelScore hess l2 np a) ∧
      groupChannels [0, 1, 2, 3] 2 = some [[0, 1], [2, 3]] ∧
      groupScore hess l2 np [0, 1] < groupScore hess l2 np [2, 3] := by
  refine ⟨fun c => [10, 10, 9, 1].getD c 0, fun c => [1, 1, 1, 9].getD c 0, fun _ => 1, ?_, ?_, ?_⟩
  · decide +kernel
  · decide
  · decide +kernel

/-- C59, with SIMD size 1 the score of a group is the score of its channel, so the order is the same. -/
theorem C59_singleton_partial {F : Type*} [Field F] (hess l2 np : ℕ → F) (c : ℕ) :
    groupScore hess l2 np [c] = channelScore hess l2 np c := by
  simp [groupScore, channelScore]

/-- C59, the score of a group of channels that have the same Hessian score, norm and number of parameters is the score
of one of them times their number; so among groups of the same size the order is that of the channels. -/
theorem C59_equal_partial {F : Type} [Field F] [CharZero F] (hess l2 np : ℕ → F) (g : List ℕ) (c : ℕ)
    (h : ∀ d ∈ g, hess d = hess c ∧ l2 d = l2 c ∧ np d = np c) :
    groupScore hess l2 np g = (g.length : F) * channelScore hess l2 np c := by
  have key : ∀ (q : ℕ → F), (∀ d ∈ g, q d = q c) → (g.map q).sum = (g.length : F) * q c := by
    intro q hq
    rw [List.map_congr_left hq, List.map_const', List.sum_replicate, nsmul_eq_mul]
  unfold groupScore channelScore
  rw [key hess fun d hd => (h d hd).1, key l2 fun d hd => (h d hd).2.1, key np fun d hd => (h d hd).2.2]
  rcases g with _ | ⟨a, g⟩
  · simp
  · have h0 : (((a :: g).length : ℕ) : F) ≠ 0 := by simp [Nat.cast_add_one_ne_zero]
    by_cases hn : np c = 0
    · simp [hn]
    · rw [mul_assoc, mul_div_mul_left _ _ h0, mul_left_comm, mul_div_assoc]

example : groupScore (fun _ => (2 : ℚ)) (fun _ => 3) (fun _ => 4) [0, 5] = 2 * (2 * 3 / 4) := by decide +kernel

/-! ## C60: reported channel scores -/

theorem foldl_setK {F : Type*} (l : List ℕ) (v : F) (m : List F) (j : ℕ) :
    (l.foldl (fun m c => m.set c v) m)[j]? = if j ∈ l ∧ j < m.length then some v else m[j]? := by
  induction l generalizing m with
  | nil => simp
  | cons a l ih =>
    rw [List.foldl_cons, ih, List.length_set]
    by_cases hj : j < m.length
    · by_cases h1 : j ∈ l
      · simp [h1, hj]
      · by_cases h2 : j = a
        · subst h2
          simp [h1, hj]
        · simp [h1, h2, List.getElem?_set_ne (Ne.symm h2)]
    · simp [hj]

theorem foldl_setK_length {F : Type*} (l : List ℕ) (v : F) (m : List F) :
    (l.foldl (fun m c => m.set c v) m).length = m.length := by
  induction l generalizing m with
  | nil => rfl
  | cons a l ih => rw [List.foldl_cons, ih, List.length_set]

theorem unroll_aux {F : Type*} (ps : List (F × List ℕ)) (m : List F)
    (hnd : (ps.map Prod.snd).flatten.Nodup) (j : ℕ) (hj : j < m.length) :
    (∀ p ∈ ps, j ∈ p.2 →
      (ps.foldl (fun acc p => p.2.foldl (fun a i => a.set i p.1) acc) m)[j]? = some p.1) ∧
    ((∀ p ∈ ps, j ∉ p.2) →
      (ps.foldl (fun acc p => p.2.foldl (fun a i => a.set i p.1) acc) m)[j]? = m[j]?) := by
  induction ps generalizing m with
  | nil => simp
  | cons p ps ih =>
    rw [List.map_cons, List.flatten_cons, List.nodup_append] at hnd
    obtain ⟨_, h2, h3⟩ := hnd
    obtain ⟨i1, i2⟩ := ih (p.2.foldl (fun a i => a.set i p.1) m) h2 (by rw [foldl_setK_length]; exact hj)
    rw [List.foldl_cons]
    refine ⟨?_, ?_⟩
    · intro p' hp' hjp
      rcases List.mem_cons.mp hp' with rfl | hp'
      · rw [i2, foldl_setK, if_pos ⟨hjp, hj⟩]
        intro p'' hp'' hm
        exact h3 j hjp j (List.mem_flatten.mpr ⟨p''.2, List.mem_map_of_mem hp'', hm⟩) rfl
      · exact i1 p' hp' hjp
    · intro hno
      rw [i2 fun p' hp' => hno p' (List.mem_cons_of_mem _ hp'), foldl_setK,
        if_neg fun h => hno p (by simp) h.1]

/-- C60. The importance reported for a channel is the score of the SIMD group that contains it. -/
theorem C60_channel_scores {F : Type*} [Zero F] (scores : List F) (groups : List (List ℕ)) (n : ℕ)
    (hperm : groups.flatten.Perm (List.range n)) (hlen : scores.length = groups.length) :
    (unrollScores scores groups).length = n ∧
    ∀ (g c : ℕ) (grp : List ℕ), groups[g]? = some grp → c ∈ grp →
      (unrollScores scores groups)[c]? = scores[g]? := by
  have hn : (groups.map List.length).sum = n := by
    rw [← List.length_flatten, hperm.length_eq, List.length_range]
  have hsnd : (scores.zip groups).map Prod.snd = groups := by
    rw [List.map_snd_zip (by omega)]
  have hlenfold : ∀ (ps : List (F × List ℕ)) (m : List F),
      (ps.foldl (fun acc p => p.2.foldl (fun a i => a.set i p.1) acc) m).length = m.length := by
    intro ps
    induction ps with
    | nil => intro m; rfl
    | cons p ps ih => intro m; rw [List.foldl_cons, ih, foldl_setK_length]
  refine ⟨by unfold unrollScores; rw [hlenfold, List.length_replicate, hn], ?_⟩
  intro g c grp hg hc
  unfold unrollScores
  obtain ⟨hgl, hge⟩ := List.getElem?_eq_some_iff.mp hg
  have hcn : c < n := by
    have : c ∈ groups.flatten := List.mem_flatten.mpr ⟨grp, List.mem_of_getElem? hg, hc⟩
    exact List.mem_range.mp (hperm.mem_iff.mp this)
  have := (unroll_aux (scores.zip groups) (List.replicate (groups.map List.length).sum 0)
    (by rw [hsnd]; exact hperm.nodup_iff.mpr List.nodup_range) c (by rw [List.length_replicate, hn]; exact hcn)).1
    (scores[g]'(by omega), groups[g]) (by
      rw [List.mem_iff_getElem]
      exact ⟨g, by rw [List.length_zip]; omega, by rw [List.getElem_zip]⟩) (by rw [hge]; exact hc)
  rw [this, List.getElem?_eq_getElem (by omega)]

example : unrollScores [5, 3, 1] [[2, 0], [1, 4], [3]] = ([5, 3, 5, 1, 3] : List ℕ) := by decide

end MCT.Pruning
