/- The linear schedules of GPTQ: regularization and gradual activation quantization. -/
import Verif.Train.Lemmas

namespace MCT.Train
open MCT.Quant MCT.QuantSpec

set_option linter.unusedSectionVars false
set_option linter.unusedVariables false

variable {K : Type} [Field K] [LinearOrder K] [IsStrictOrderedRing K] [FloorRing K]

/-- The annealed fraction of the way. -/
theorem at_eq (a : Anneal K) (t : ℕ) (h : a.tStart < a.tEnd) :
    (t ≤ a.tStart → a.at t = a.init) ∧ (a.tEnd ≤ t → a.at t = a.target) ∧
      (a.tStart ≤ t → t ≤ a.tEnd → a.at t =
        a.init + ((t : K) - a.tStart) / ((a.tEnd : K) - a.tStart) * (a.target - a.init)) := by
  have hd : (0 : K) < (a.tEnd : K) - a.tStart := by
    have : (a.tStart : K) < a.tEnd := by exact_mod_cast h
    linarith
  refine ⟨fun ht => ?_, fun ht => ?_, fun h1 h2 => ?_⟩
  · have : (t : K) ≤ a.tStart := by exact_mod_cast ht
    have : ((t : K) - a.tStart) / ((a.tEnd : K) - a.tStart) ≤ 0 :=
      div_nonpos_of_nonpos_of_nonneg (by linarith) hd.le
    unfold Anneal.at npClip
    rw [max_eq_right this]; simp
  · have : (a.tEnd : K) ≤ t := by exact_mod_cast ht
    have : 1 ≤ ((t : K) - a.tStart) / ((a.tEnd : K) - a.tStart) := by
      rw [le_div_iff₀ hd]; linarith
    unfold Anneal.at npClip
    rw [max_eq_left (by linarith), min_eq_right this]; ring
  · have g1 : (a.tStart : K) ≤ t := by exact_mod_cast h1
    have g2 : (t : K) ≤ a.tEnd := by exact_mod_cast h2
    unfold Anneal.at
    rw [npClip_of_mem]
    · exact div_nonneg (by linarith) hd.le
    · rw [div_le_one hd]; linarith

/-- **C89**: a schedule is rejected exactly when its start is not before its end; an accepted one has its
initial value up to the start, its target value from the end on, and goes linearly between them. -/
theorem C89_schedule (ts te : ℕ) (i g : K) :
    (mkAnneal ts te i g = none ↔ te ≤ ts) ∧
    ∀ a, mkAnneal ts te i g = some a →
      (∀ t, t ≤ ts → a.at t = i) ∧ (∀ t, te ≤ t → a.at t = g) ∧
      (∀ t, ts ≤ t → t ≤ te → (a.at t - i) * ((te : K) - ts) = ((t : K) - ts) * (g - i)) := by
  unfold mkAnneal
  constructor
  · split_ifs with h
    · simp; omega
    · simp; omega
  · intro a ha
    split_ifs at ha with h
    simp only [Option.some.injEq] at ha
    subst ha
    refine ⟨fun t ht => (at_eq ⟨ts, te, i, g⟩ t h).1 ht, fun t ht => (at_eq ⟨ts, te, i, g⟩ t h).2.1 ht, ?_⟩
    intro t h1 h2
    rw [(at_eq ⟨ts, te, i, g⟩ t h).2.2 h1 h2]
    have hd : (te : K) - ts ≠ 0 := by
      have : (ts : K) < te := by exact_mod_cast h
      linarith
    simp only
    field_simp
    ring

/-- **C89**: the annealed value stays between the initial and the target value and moves towards the target
at every step. -/
theorem C89_monotone (ts te : ℕ) (i g : K) (a : Anneal K) (ha : mkAnneal ts te i g = some a) :
    (i ≤ g → Monotone a.at ∧ ∀ t, i ≤ a.at t ∧ a.at t ≤ g) ∧
    (g ≤ i → Antitone a.at ∧ ∀ t, g ≤ a.at t ∧ a.at t ≤ i) := by
  unfold mkAnneal at ha
  split_ifs at ha with h
  simp only [Option.some.injEq] at ha
  subst ha
  have hd : (0 : K) < (te : K) - ts := by
    have : (ts : K) < te := by exact_mod_cast h
    linarith
  have hf : ∀ s t : ℕ, s ≤ t → npClip (((s : K) - ts) / ((te : K) - ts)) 0 1 ≤
      npClip (((t : K) - ts) / ((te : K) - ts)) 0 1 := by
    intro s t hst
    apply npClip_mono
    have : (s : K) ≤ t := by exact_mod_cast hst
    exact div_le_div_of_nonneg_right (by linarith) hd.le
  have hb : ∀ t : ℕ, 0 ≤ npClip (((t : K) - ts) / ((te : K) - ts)) 0 1 ∧
      npClip (((t : K) - ts) / ((te : K) - ts)) 0 1 ≤ 1 := fun t => npClip_mem (by norm_num)
  constructor
  · intro hig
    refine ⟨fun s t hst => ?_, fun t => ?_⟩
    · unfold Anneal.at
      have := mul_le_mul_of_nonneg_right (hf s t hst) (sub_nonneg.mpr hig)
      simp only; linarith
    · unfold Anneal.at
      have h1 := mul_nonneg (hb t).1 (sub_nonneg.mpr hig)
      have h2 := mul_le_mul_of_nonneg_right (hb t).2 (sub_nonneg.mpr hig)
      simp only; constructor <;> linarith
  · intro hig
    refine ⟨fun s t hst => ?_, fun t => ?_⟩
    · unfold Anneal.at
      have := mul_le_mul_of_nonneg_right (hf s t hst) (sub_nonneg.mpr hig)
      simp only; linarith
    · unfold Anneal.at
      have h1 := mul_nonneg (hb t).1 (sub_nonneg.mpr hig)
      have h2 := mul_le_mul_of_nonneg_right (hb t).2 (sub_nonneg.mpr hig)
      simp only; constructor <;> linarith

/-- The regularization of 10 steps: 20 during the two steps of warm-up, then down to 2. -/
example : (regSchedule 10 : Option (Anneal ℚ)).map (fun a => [a.at 0, a.at 2, a.at 6, a.at 10]) =
    some [20, 20, 11, 2] := by decide +kernel

/-- **C89** (gradual activation quantization): at every call the output lies between the float and the
quantized activation; it is the quantized one from the end of the schedule on when the target fraction is one,
and the float one up to its start when the initial fraction is zero. -/
theorem C89_gradual (start : ℕ) (e : Option ℕ) (i g : K) (total : ℕ) (a : Anneal K)
    (ha : gradualSchedule start e i g total = some a) (q : K → K) (k : ℕ) (x : K) :
    min x (q x) ≤ gradualCall a q k x ∧ gradualCall a q k x ≤ max x (q x) ∧
      (g = 1 → e.getD total ≤ k → gradualCall a q k x = q x) ∧
      (i = 0 → k ≤ start → gradualCall a q k x = x) := by
  unfold gradualSchedule at ha
  split_ifs at ha with hc
  obtain ⟨hi, hig, hg⟩ := hc
  have hs : mkAnneal start (e.getD total) i g = some a := by
    cases e with
    | none => exact ha
    | some e' =>
      simp only at ha
      split_ifs at ha with h1 h2
      · omega
      · exact ha
  obtain ⟨hm, hb⟩ := (C89_monotone _ _ _ _ a hs).1 hig.le
  obtain ⟨h1, h2, _⟩ := (C89_schedule start (e.getD total) i g).2 a hs
  have hf0 : 0 ≤ a.at k := hi.trans (hb k).1
  have hf1 : a.at k ≤ 1 := (hb k).2.trans hg
  unfold gradualCall
  simp only
  refine ⟨?_, ?_, ?_, ?_⟩
  · have g1 := mul_le_mul_of_nonneg_left (min_le_left x (q x)) (sub_nonneg.mpr hf1)
    have g2 := mul_le_mul_of_nonneg_left (min_le_right x (q x)) hf0
    linarith
  · have g1 := mul_le_mul_of_nonneg_left (le_max_left x (q x)) (sub_nonneg.mpr hf1)
    have g2 := mul_le_mul_of_nonneg_left (le_max_right x (q x)) hf0
    linarith
  · intro hg1 hk
    rw [h2 k hk, hg1]; ring
  · intro hi0 hk
    rw [h1 k hk, hi0]; ring

example : (gradualSchedule 0 none (0 : ℚ) 1 4).map (fun a => (List.range 6).map (fun k =>
    gradualCall a (fun _ => 8) k 0)) = some [0, 2, 4, 6, 8, 8] := by decide +kernel

/-- **C89** is false of the documented end: with no end step given, the schedule is said to be complete at the
last step. The steps of a training of `total` steps are `0, …, total - 1`, and at each of them the fraction is
below its target, for every schedule that is accepted. -/
theorem C89_last_step_violated (start : ℕ) (i g : K) (total : ℕ) (a : Anneal K)
    (ha : gradualSchedule start none i g total = some a) : ∀ k, k < total → a.at k < g := by
  unfold gradualSchedule at ha
  split_ifs at ha with hc
  obtain ⟨hi, hig, hg⟩ := hc
  unfold mkAnneal at ha
  simp only at ha
  split_ifs at ha with h
  simp only [Option.some.injEq] at ha
  subst ha
  intro k hk
  have hd : (0 : K) < (total : K) - start := by
    have : (start : K) < total := by exact_mod_cast h
    linarith
  have hlt : npClip (((k : K) - start) / ((total : K) - start)) 0 1 < 1 := by
    have hk' : (k : K) < total := by exact_mod_cast hk
    have h1 : ((k : K) - start) / ((total : K) - start) < 1 := by rw [div_lt_one hd]; linarith
    unfold npClip
    exact min_lt_of_left_lt (max_lt h1 (by norm_num))
  unfold Anneal.at
  have := mul_lt_mul_of_pos_right hlt (sub_pos.mpr hig)
  simp only; linarith

end MCT.Train
