import Verif.MaxCut.Bridge
import Mathlib.Algebra.Order.Ring.Rat

/-! # Max-cut properties (C27, C28, C65) -/

set_option linter.unusedSectionVars false

namespace MCT.MaxCut
open MCT.MaxCutSpec

variable {K : Type} [Field K] [LinearOrder K] [IsStrictOrderedRing K]

/-- Whatever `compute_graph_max_cut` returns, for any choice among the cuts of the open lists, any limits and
any timeouts, is a schedule of the whole graph, the reported memory is the largest over its steps, and the
returned cuts describe every step. -/
theorem C27_schedule_partial {g : MemGraph K} (hg : WF g)
    {pick : ℕ → K → ℕ → List (Entry K) → Option (ℕ × Entry K)} (hp : ∀ it est, Chooses est (pick it est))
    (timeout : ℕ → Bool) (nIter astarIter : ℕ) (eps : K) {r : Result K}
    (h : computeMaxCut g pick timeout nIter astarIter eps = some (some r)) :
    IsSchedule g r.schedule ∧ IsPeak g r.schedule r.cost ∧ CoversSteps g r.schedule r.cuts := by
  unfold computeMaxCut at h
  rcases loop_result _ _ _ _ _ _ h with h | ⟨it, est, h⟩
  · simp at h
  · exact solve_sound hg (chooses_picks (hp it est)) h

/-- A schedule is returned when the number of expansions allowed per search exceeds the number of operations
by more than two. -/
theorem C27_found_partial {g : MemGraph K} (hg : WF g)
    {pick : ℕ → K → ℕ → List (Entry K) → Option (ℕ × Entry K)} (hp : ∀ it est, Chooses est (pick it est))
    (timeout : ℕ → Bool) {nIter astarIter : ℕ} (hn : 0 < nIter) (ha : g.n + 2 < astarIter) (eps : K) :
    ∃ r, computeMaxCut g pick timeout nIter astarIter eps = some (some r) := by
  obtain ⟨k, rfl⟩ : ∃ k, nIter = k + 1 := ⟨nIter - 1, by omega⟩
  unfold computeMaxCut maxCutLoop
  simp only [first_estimate]
  obtain ⟨r, hr⟩ := solve_found hg (hp 0 (totalMem g)) ha
  rw [hr]
  simp only [ne_eq, not_true_eq_false, false_and, if_false]
  split
  · exact ⟨r, rfl⟩
  · exact loop_some _ _ _ _ r

/-- A graph with more operations gets no schedule at all (with the default limit of 1000 expansions: 998
operations or more), however long the searches run: the result is `(None, 0, None)`. -/
theorem C27_large_graph_violated {g : MemGraph K} (hg : WF g)
    {pick : ℕ → K → ℕ → List (Entry K) → Option (ℕ × Entry K)} (hp : ∀ it est, Chooses est (pick it est))
    {timeout : ℕ → Bool} (ht : ∀ it, timeout it = false) (nIter : ℕ) {astarIter : ℕ} (ha : astarIter ≤ g.n + 2)
    (eps : K) : computeMaxCut g pick timeout nIter astarIter eps = some none := by
  unfold computeMaxCut
  exact loop_none (fun it est => solve_none hg (chooses_picks (hp it est)) ha) ht _ _ _ _

/-- The reported max cut is at least what any single operation needs, and at most the size of all tensors. -/
theorem C28_bracketed {g : MemGraph K} (hg : WF g)
    {pick : ℕ → K → ℕ → List (Entry K) → Option (ℕ × Entry K)} (hp : ∀ it est, Chooses est (pick it est))
    (timeout : ℕ → Bool) (nIter astarIter : ℕ) (eps : K) {r : Result K}
    (h : computeMaxCut g pick timeout nIter astarIter eps = some (some r)) :
    (∀ i < g.n, ownMem g i ≤ r.cost) ∧ r.cost ≤ totalMem g := by
  obtain ⟨hs, hpk, _⟩ := C27_schedule_partial hg hp timeout nIter astarIter eps h
  constructor
  · intro i hi
    exact ((lbound_spec hg).2 i hi).trans (lbound_le_peak hg hs hpk)
  · obtain ⟨p, i, q, _, hc⟩ := hpk.2
    rw [hc]; exact liveMem_le_total hg p i

/-- The lower bound the search starts from is the largest need of a single operation, and no schedule has a
smaller peak. -/
theorem C28_lower_bound {g : MemGraph K} (hg : WF g) :
    (∃ i < g.n, g.lbound = ownMem g i) ∧ (∀ i < g.n, ownMem g i ≤ g.lbound) ∧
      ∀ σ c, IsSchedule g σ → IsPeak g σ c → g.lbound ≤ c :=
  ⟨(lbound_spec hg).1, (lbound_spec hg).2, fun _ _ hs hc => lbound_le_peak hg hs hc⟩

/-- One search: its cost exceeds neither the estimate nor the peak of any schedule, whichever is larger.  The
pruning of the open list at pivots loses nothing. -/
theorem C65_one_search {g : MemGraph K} (hg : WF g) {est : K} {pick : ℕ → List (Entry K) → Option (ℕ × Entry K)}
    (hp : Chooses est pick) {limit : ℕ} {r : Result K} (h : solve g pick limit = some r)
    {σ : List ℕ} (hσ : IsSchedule g σ) {c : K} (hc : IsPeak g σ c) : r.cost ≤ max est c :=
  solve_quality hg hp h hσ hc

/-- With a limit on expansions that does not bind and no timeouts, the result is within the factor `1 + eps` of
the peak of every schedule, or within what the halving of the interval of estimates leaves. -/
theorem C65_near_optimal {g : MemGraph K} (hg : WF g)
    {pick : ℕ → K → ℕ → List (Entry K) → Option (ℕ × Entry K)} (hp : ∀ it est, Chooses est (pick it est))
    {timeout : ℕ → Bool} (ht : ∀ it, timeout it = false) {nIter astarIter : ℕ} (hn : 0 < nIter)
    (ha : (g.n + 4) ^ (g.n + 2) < astarIter) {eps : K} (he : 0 ≤ eps) :
    ∃ r, computeMaxCut g pick timeout nIter astarIter eps = some (some r) ∧
      ∀ σ c, IsSchedule g σ → IsPeak g σ c →
        r.cost ≤ c * (1 + eps) ∨ r.cost ≤ max c (g.lbound + (totalMem g - g.lbound) / 2 ^ (nIter - 1)) := by
  obtain ⟨k, rfl⟩ : ∃ k, nIter = k + 1 := ⟨nIter - 1, by omega⟩
  have hsmall : g.n + 2 < astarIter := lt_trans (lt_of_lt_of_le (Nat.lt_pow_self (by omega)) le_rfl) ha
  obtain ⟨r, hr⟩ := C27_found_partial hg hp timeout hn hsmall eps
  refine ⟨r, hr, ?_⟩
  intro σ c hσ hc
  have hc0 : 0 ≤ c := by
    obtain ⟨p, i, q, _, h2⟩ := hc.2
    rw [h2]; exact liveMem_nonneg hg _ _
  have hl := lbound_le_peak hg hσ hc
  rcases loop_quality (p := c) (fun it est => solve_terminates hg (hp it est) ha) ht
    (fun it est r h => solve_quality hg (hp it est) h hσ hc) g.lbound
    (mul_le_mul_of_nonneg_right hl (by linarith))
    (by nlinarith) k 0 _ none r hr with h | h
  · exact .inl h
  · right
    refine h.trans (max_le_max le_rfl ?_)
    have : (g.tensors.map g.size).sum = totalMem g := rfl
    rw [this, Nat.add_sub_cancel, pow_succ]
    have h2 : (0 : K) < 2 ^ k := by positivity
    apply le_of_eq
    field_simp
    ring

/-- A later search never makes the reported memory worse than a search with a larger estimate did. -/
theorem C65_no_regression {g : MemGraph K} (hg : WF g) {est est' : K}
    {pick pick' : ℕ → List (Entry K) → Option (ℕ × Entry K)} (hp : Chooses est pick) (hp' : Chooses est' pick')
    {limit limit' : ℕ} {r r' : Result K} (h : solve g pick limit = some r) (h' : solve g pick' limit' = some r')
    (hle : est' ≤ r.cost) : r'.cost ≤ r.cost := by
  obtain ⟨hs, hpk, _⟩ := solve_sound hg (chooses_picks hp) h
  have := solve_quality hg hp' h' hs hpk
  rwa [max_eq_right hle] at this

/-! ### A choice function, and examples -/

/-- Index and element of the best cut of the open list, first among equals: an instance of
`_get_cut_to_expand` (max_cut_astar.py:218-239). -/
def firstBest (est : K) : List (Entry K) → Option (ℕ × Entry K)
  | [] => none
  | e :: l =>
    match firstBest est l with
    | none => some (0, e)
    | some (i, b) =>
      if max b.cost est < max e.cost est ∨ (max b.cost est = max e.cost est ∧ e.route.length < b.route.length)
      then some (i + 1, b) else some (0, e)

theorem firstBest_chooses (est : K) : Chooses est (fun _ l => firstBest est l) := by
  intro k l
  constructor
  · rintro rfl; rfl
  · induction l with
    | nil => intro h; exact absurd rfl h
    | cons e l ih =>
      intro _
      by_cases hl : l = []
      · subst hl
        exact ⟨0, e, rfl, rfl, by intro e' he'; simp at he'; subst he'; exact .inr ⟨rfl, le_rfl⟩⟩
      · obtain ⟨i, b, hb, hget, hmin⟩ := ih hl
        simp only at hb
        simp only [firstBest, hb]
        split
        · rename_i hlt
          refine ⟨i + 1, b, rfl, by simpa using hget, ?_⟩
          intro e' he'
          rcases List.mem_cons.1 he' with rfl | he'
          · rcases hlt with h | ⟨h1, h2⟩
            · exact .inl h
            · exact .inr ⟨h1, h2.le⟩
          · exact hmin e' he'
        · rename_i hnlt
          push Not at hnlt
          refine ⟨0, e, rfl, rfl, ?_⟩
          intro e' he'
          rcases List.mem_cons.1 he' with rfl | he'
          · exact .inr ⟨rfl, le_rfl⟩
          · rcases hmin e' he' with h | ⟨h1, h2⟩
            · exact .inl (lt_of_le_of_lt hnlt.1 h)
            · rcases lt_or_eq_of_le hnlt.1 with h | h
              · exact .inl (h.trans_eq h1)
              · exact .inr ⟨h.trans h1, h2.trans (hnlt.2 h.symm)⟩

/-- An input, two branches of different size, and their sum. -/
def exG : MemGraph ℚ where
  n := 4
  ins := fun i => if i = 1 ∨ i = 2 then [0] else if i = 3 then [1, 2] else []
  outs := fun i => [i]
  size := fun t => if t = 1 then 7 else 3
  isInput := fun i => decide (i = 0)

theorem exG_wf : WF exG where
  pos := by decide
  outs := by intro i _; simp [exG]
  single := by intro i _ j _ t hi hj; simp [exG] at hi hj; omega
  ins := by
    intro j hj t ht
    simp only [exG] at ht hj
    have : j = 0 ∨ j = 1 ∨ j = 2 ∨ j = 3 := by omega
    rcases this with rfl | rfl | rfl | rfl
    · simp at ht
    · simp at ht; subst ht; exact ⟨0, by omega, by simp [exG]⟩
    · simp at ht; subst ht; exact ⟨0, by omega, by simp [exG]⟩
    · simp at ht; rcases ht with rfl | rfl
      · exact ⟨1, by omega, by simp [exG]⟩
      · exact ⟨2, by omega, by simp [exG]⟩
  size := by intro t; simp only [exG]; split <;> norm_num

/-- The search on the example returns a schedule of peak 13. -/
example : ((computeMaxCut exG (fun _ est _ l => firstBest est l) (fun _ => false) 50 1000 (1/100)).map
    (fun r => r.map (fun r => (r.schedule, r.cost)))) = some (some ([0, 1, 2, 3], 13)) := by decide +kernel

/-- The premises of `C27_schedule_partial`, `C27_found_partial`, `C28_bracketed` hold on it. -/
example : ∃ r, computeMaxCut exG (fun _ est _ l => firstBest est l) (fun _ => false) 50 1000 (1/100) = some (some r) ∧
    IsSchedule exG r.schedule ∧ IsPeak exG r.schedule r.cost ∧ CoversSteps exG r.schedule r.cuts ∧
      (∀ i < 4, ownMem exG i ≤ r.cost) ∧ r.cost ≤ 16 := by
  obtain ⟨r, hr⟩ := C27_found_partial exG_wf (pick := fun _ est _ l => firstBest est l)
    (fun _ est => firstBest_chooses est) (fun _ => false) (nIter := 50) (astarIter := 1000) (by decide) (by decide) (1/100)
  have h1 := C27_schedule_partial exG_wf (fun _ est => firstBest_chooses est) _ _ _ _ hr
  have h2 := C28_bracketed exG_wf (fun _ est => firstBest_chooses est) _ _ _ _ hr
  have h3 : totalMem exG = 16 := by decide +kernel
  exact ⟨r, hr, h1.1, h1.2.1, h1.2.2, h2.1, h3 ▸ h2.2⟩

/-- The bounds are not trivial on it. -/
example : exG.lbound = 13 ∧ ownMem exG 1 = 10 ∧ totalMem exG = 16 := by decide +kernel

/-- A schedule whose peak exceeds the lower bound, so that order matters: two branches, each with a large
intermediate tensor. -/
def exG2 : MemGraph ℚ where
  n := 6
  ins := fun i => if i = 1 ∨ i = 3 then [0] else if i = 2 then [1] else if i = 4 then [3] else if i = 5 then [2, 4] else []
  outs := fun i => [i]
  size := fun t => if t = 1 ∨ t = 3 then 9 else 1
  isInput := fun i => decide (i = 0)

/-- On it a breadth-first order needs 19, the search returns a depth-first order that needs 11. -/
example : ((computeMaxCut exG2 (fun _ est _ l => firstBest est l) (fun _ => false) 50 1000 (1/100)).map
    (fun r => r.map (fun r => (r.schedule, r.cost)))) = some (some ([0, 1, 2, 3, 4, 5], 11)) ∧
    liveMem exG2 [0, 1] 3 = 19 := by decide +kernel

/-- A chain of `n` operations: more than 997 operations get no schedule with the default limits. -/
def chain (n : ℕ) : MemGraph ℚ where
  n := n + 1
  ins := fun i => if i = 0 then [] else [i - 1]
  outs := fun i => [i]
  size := fun _ => 1
  isInput := fun i => decide (i = 0)

theorem chain_wf (n : ℕ) : WF (chain n) where
  pos := Nat.succ_pos n
  outs := by intro i _; simp [chain]
  single := by intro i _ j _ t hi hj; simp [chain] at hi hj; omega
  ins := by
    intro j _ t ht
    simp only [chain] at ht
    split at ht
    · simp at ht
    · simp at ht; subst ht; exact ⟨j - 1, by omega, by simp [chain]⟩
  size := by intro t; simp [chain]

example : computeMaxCut (chain 997) (fun _ est _ l => firstBest est l) (fun _ => false) 50 1000 (1/100) = some none :=
  C27_large_graph_violated (chain_wf 997) (fun _ est => firstBest_chooses est) (fun _ => rfl) 50 (by decide) (1/100)

example : ∃ r, computeMaxCut (chain 996) (fun _ est _ l => firstBest est l) (fun _ => false) 50 1000 (1/100) = some (some r) :=
  C27_found_partial (chain_wf 996) (fun _ est => firstBest_chooses est) (fun _ => false) (by decide) (by decide) (1/100)

/-- The premises of `C65_near_optimal` on the first example: with 49 halvings the interval is below one percent. -/
example : ∃ r, computeMaxCut exG (fun _ est _ l => firstBest est l) (fun _ => false) 50 (8 ^ 6 + 1) (1/100) = some (some r) ∧
    ∀ σ c, IsSchedule exG σ → IsPeak exG σ c →
      r.cost ≤ c * (1 + 1/100) ∨ r.cost ≤ max c (exG.lbound + (totalMem exG - exG.lbound) / 2 ^ 49) :=
  C65_near_optimal exG_wf (fun _ est => firstBest_chooses est) (fun _ => rfl) (by decide) (by decide) (by norm_num)

end MCT.MaxCut
