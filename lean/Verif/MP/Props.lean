import Verif.MP.Refine

set_option linter.unusedSectionVars false

/-!
# Property theorems C18–C26, C57, C58 (mixed precision)
-/

namespace MCT.MP

open MCT.MPSpec

variable {K : Type*} [Field K] [LinearOrder K] [IsStrictOrderedRing K]

theorem valid_iff {net : Net} {cfg : ℕ → ℕ} : (net.space (K := K)).Valid cfg ↔ ValidCfg net cfg := by
  constructor
  · intro h i n hn hc
    have := h i (mem_confNodes.mpr ⟨n, hn, hc⟩)
    simpa [Net.space, hn] using this
  · intro h i hi
    obtain ⟨n, hn, hc⟩ := mem_confNodes.mp hi
    simpa [Net.space, hn] using h i n hn hc

/-- Example network: an input and a convolution whose kernel has two bit-widths; the input's
activation has two bit-widths. -/
def exNet : Net where
  nodes := [
    { reuse := false, attrs := [], kernel := none, cands := [⟨8, []⟩, ⟨4, []⟩], mode := .quant,
      actSize := 16, inner := false, macs := 0, prev := [] },
    { reuse := false, attrs := [(8, true), (2, false)], kernel := some 0,
      cands := [⟨8, [8, 32]⟩, ⟨8, [4, 32]⟩], mode := .quant, actSize := 4, inner := false,
      macs := 32, prev := [0] }]
  cuts := [[0], [0, 1]]

theorem exNet_uniform : Uniform exNet := by
  intro i n hn
  match i with
  | 0 => simp only [exNet, List.getElem?_cons_zero, Option.some.injEq] at hn; subst hn; decide
  | 1 => simp [exNet] at hn; subst hn; decide
  | i + 2 => simp [exNet] at hn

theorem exNet_valid (cfg : ℕ → ℕ) (h0 : cfg 0 < 2) (h1 : cfg 1 < 2) : ValidCfg exNet cfg := by
  intro i n hn _
  match i with
  | 0 => simp only [exNet, List.getElem?_cons_zero, Option.some.injEq] at hn; subst hn; exact h0
  | 1 => simp [exNet] at hn; subst hn; exact h1
  | i + 2 => simp [exNet] at hn

/-! ## C18: prediction of the utilization -/

/-- C18. `m` is the minimal configuration, `cfg` any configuration. The utilization of `cfg` is the
utilization of `m` plus, for each configurable layer, the difference made by changing only that layer:
one equation per memory element (weights: one; activation and total: one per cut). Also for BOPS when no
layer has both varying kernel bits and an input activation with varying bits. -/
theorem C18_prediction (net : Net) (m cfg : ℕ → ℕ) (hm : ValidCfg net m) (hcfg : ValidCfg net cfg)
    (t : Target) (ht : t = .bops → BopsSeparate net)
    (hdef : (net.utilVec (K := K) m t).isSome)
    (hdef' : ∀ i c, ValidCfg net (setCfg m i c) → (net.utilVec (K := K) (setCfg m i c) t).isSome) :
    ∃ u v : List K, net.utilVec m t = some u ∧ net.utilVec cfg t = some v ∧ v.length = u.length ∧
      ∀ e, v.getD e 0 = u.getD e 0 + (net.confNodes.map fun i =>
        ((net.utilVec (setCfg m i (cfg i)) t).getD []).getD e 0 - u.getD e 0).sum := by
  have hset : ∀ l ∈ net.confNodes, ∀ c, c < (net.space (K := K)).ncand l → ValidCfg net (setCfg m l c) := by
    intro l hl c hc
    obtain ⟨n, hn, _⟩ := mem_confNodes.mp hl
    simp only [Net.space, hn] at hc
    exact validCfg_set hm hn (List.getElem?_eq_getElem hc)
  obtain ⟨a1, a2, a3⟩ := space_additive (K := K) net m (valid_iff.mpr hm) t ht cfg (valid_iff.mpr hcfg) hdef
    (fun l hl c hc => hdef' l c (hset l hl c hc))
  obtain ⟨u, hu⟩ := Option.isSome_iff_exists.mp hdef
  obtain ⟨v, hv⟩ := Option.isSome_iff_exists.mp a1
  change net.utilVec cfg t = some v at hv
  refine ⟨u, v, hu, hv, ?_, fun e => ?_⟩
  · have h2 : ((net.utilVec (K := K) cfg t).getD []).length = ((net.utilVec (K := K) m t).getD []).length := a2
    rw [hu, hv] at h2; exact h2
  · have h3 : ((net.utilVec (K := K) cfg t).getD []).getD e 0 = ((net.utilVec (K := K) m t).getD []).getD e 0 +
        (net.confNodes.map fun i => ((net.utilVec (K := K) (setCfg m i (cfg i)) t).getD []).getD e 0 -
          ((net.utilVec (K := K) m t).getD []).getD e 0).sum := a3 e
    rw [hu, hv] at h3; exact h3

example : ValidCfg exNet (fun _ => 1) ∧ ValidCfg exNet (fun _ => 0) ∧
    exNet.utilVec (K := ℚ) (fun _ => 1) .total = some [12, 16] ∧
    exNet.utilVec (K := ℚ) (fun _ => 0) .total = some [24, 28] :=
  ⟨exNet_valid _ (by decide) (by decide), exNet_valid _ (by decide) (by decide),
    by decide +kernel, by decide +kernel⟩

/-! ## C19: the result meets the target -/

/-- C19. The configuration a search returns has a defined utilization within the target, in each of
weights, activation, total and BOPS. Missing: the total constraint without quantized activations
(`C19_total_without_activations_violated`) and BOPS with coupled bits (see `C19_search_partial`). -/
theorem C19_meets_target_partial (net : Net) {solve : LP K → Option ((ℕ → ℕ → ℤ) × (ℕ → K))}
    (hs : SolverOk solve) (m : ℕ → ℕ) (target : RU K) (sens : ℕ → ℕ → K)
    (hmv : ValidCfg net m)
    (hact : (.activation ∈ target.restricted ∨ .total ∈ target.restricted) → net.actTargets [] ≠ [])
    (hbops : .bops ∈ target.restricted → BopsSeparate net)
    (cfg : ℕ → ℕ) (h : net.space.search solve m target sens = .ok cfg) :
    ValidCfg net cfg ∧ Satisfies net target cfg := by
  obtain ⟨h1, h2, _⟩ := search_ok net.space hs m target sens cfg
    (fun t ht => space_additive net m (valid_iff.mpr hmv) t (fun e => hbops (e ▸ ht))) h
  obtain ⟨ru, hru, hle⟩ := (computeRU_meets net target cfg hact).mp h2
  refine ⟨valid_iff.mp h1, ru, hru, fun t => ?_⟩
  by_cases ht : t ∈ target.restricted
  · exact hle t ht
  · rw [mem_restricted, not_lt_top_iff] at ht
    rw [ht]; exact le_top

/-- Without quantized activations. -/
def exNoAct : Net where
  nodes := [
    { reuse := false, attrs := [], kernel := none, cands := [⟨8, []⟩], mode := .noQuant,
      actSize := 16, inner := false, macs := 0, prev := [] },
    { reuse := false, attrs := [(8, true)], kernel := some 0,
      cands := [⟨8, [8]⟩, ⟨8, [4]⟩], mode := .noQuant, actSize := 4, inner := false,
      macs := 32, prev := [0] }]
  cuts := [[0], [0, 1]]

/-- C19 is false of the code when no activation is quantized: the total-memory constraint disappears.
The search with target total 5 bytes returns the 8-bit candidate, whose total is 8 bytes; the 4-bit
candidate takes 4. -/
theorem C19_total_without_activations_violated :
    ∃ m, exNoAct.minCfg = some m ∧
    ((exNoAct.space (K := ℚ)).search bruteSolve m ⟨⊤, ⊤, 5, ⊤⟩ (fun _ c => c)).map (fun cfg => cfg 1) = .ok 0 ∧
    (∃ ru, exNoAct.computeRU (K := ℚ) [.total] (fun _ => 0) = some ru ∧ ru.total = 8) ∧
    (∃ ru, exNoAct.computeRU (K := ℚ) [.total] (fun _ => 1) = some ru ∧ ru.total = 4) := by
  refine ⟨_, rfl, by decide +kernel, ⟨_, rfl, by decide +kernel⟩, ⟨_, rfl, by decide +kernel⟩⟩

/-! ## C20: optimality -/

theorem finalizeMetric_scale {thr : K} (hthr : 0 < thr) {layers : List ℕ} {ncand : ℕ → ℕ}
    {sens sens' : ℕ → ℕ → K} (h : finalizeMetric thr layers ncand sens = some sens') :
    ∃ k : K, 0 < k ∧ ∀ l c, sens' l c = sens l c * k := by
  unfold finalizeMetric at h
  rcases hmx : listMax (layers.flatMap fun l => (List.range (ncand l)).map (sens l)) with _ | mx
  · rw [hmx] at h; exact absurd h (by simp)
  · rw [hmx] at h
    simp only [Option.some.injEq] at h
    rw [← h]
    by_cases ht : thr ≤ mx
    · refine ⟨mx⁻¹, inv_pos.mpr (lt_of_lt_of_le hthr ht), fun l c => ?_⟩
      rw [if_pos ht, div_eq_mul_inv]
    · exact ⟨1, one_pos, fun l c => by rw [if_neg ht, mul_one]⟩

theorem sum_map_mul (l : List ℕ) (f : ℕ → K) (k : K) : (l.map fun i => f i * k).sum = (l.map f).sum * k := by
  induction l with
  | nil => simp
  | cons a l ih => simp only [List.map_cons, List.sum_cons, ih, add_mul]

/-- C20. With non-negative sensitivities, scaled for the solver when they are large, no configuration
within the target has a smaller total sensitivity than the one returned. Missing: negative
sensitivities (`C20_negative_violated`). -/
theorem C20_optimal_partial (net : Net) {solve : LP K → Option ((ℕ → ℕ → ℤ) × (ℕ → K))}
    (hs : SolverOk solve) (m : ℕ → ℕ) (hmv : ValidCfg net m)
    (target : RU K) (sens sens' : ℕ → ℕ → K) (thr : K) (hthr : 0 < thr)
    (hfin : finalizeMetric thr net.confNodes (net.space (K := K)).ncand sens = some sens')
    (hnn : ∀ i c, 0 ≤ sens i c)
    (hact : (.activation ∈ target.restricted ∨ .total ∈ target.restricted) → net.actTargets [] ≠ [])
    (hbops : .bops ∈ target.restricted → BopsSeparate net)
    (cfg : ℕ → ℕ) (h : (net.space (K := K)).search solve m target sens' = .ok cfg)
    (cfg' : ℕ → ℕ) (hv : ValidCfg net cfg') (hsat : Satisfies net target cfg') :
    totalSens net sens cfg ≤ totalSens net sens cfg' := by
  obtain ⟨k, hk, hsc⟩ := finalizeMetric_scale hthr hfin
  obtain ⟨_, _, h3⟩ := search_ok net.space hs m target sens' cfg
    (fun t ht => space_additive net m (valid_iff.mpr hmv) t (fun e => hbops (e ▸ ht))) h
  obtain ⟨ru, hru, hle⟩ := hsat
  have := h3 cfg' (valid_iff.mpr hv) ((computeRU_meets net target cfg' hact).mpr ⟨ru, hru, fun t _ => hle t⟩)
    (fun l _ => by rw [hsc]; exact mul_nonneg (hnn _ _) hk.le)
  have e : ∀ c : ℕ → ℕ, (net.space (K := K)).layers.map (fun l => sens' l (c l)) =
      net.confNodes.map fun l => sens l (c l) * k := by
    intro c; apply List.map_congr_left; intro l _; exact hsc _ _
  rw [e, e, sum_map_mul, sum_map_mul] at this
  exact le_of_mul_le_mul_right this hk

/-- C20 is false of the code for negative sensitivities (a custom metric may be negative): a candidate
with a negative value is excluded from the problem. -/
theorem C20_negative_violated :
    ∃ m, exNet.minCfg = some m ∧
    ((exNet.space (K := ℚ)).search bruteSolve m ⟨100, ⊤, ⊤, ⊤⟩
      (fun i c => if i = 1 ∧ c = 1 then -1 else 1)).map (fun cfg => (cfg 0, cfg 1)) = .ok (0, 0) ∧
    (∃ ru, exNet.computeRU (K := ℚ) [.weights] (fun i => i) = some ru ∧ ru.weights = 4) ∧
    totalSens exNet (fun i c => if i = 1 ∧ c = 1 then (-1 : ℚ) else 1) (fun i => i) <
    totalSens exNet (fun i c => if i = 1 ∧ c = 1 then (-1 : ℚ) else 1) (fun _ => 0) := by
  refine ⟨_, rfl, by decide +kernel, ⟨_, rfl, by decide +kernel⟩, by decide +kernel⟩

/-- The hypotheses of C19 and C20 hold of a search with an activation and a weights target; the result
is the only one of total sensitivity 1. -/
example : SolverOk (bruteSolve (K := ℚ)) ∧ exNet.actTargets [] ≠ [] ∧
    (∃ m, exNet.minCfg = some m ∧ ValidCfg exNet m ∧
      ((exNet.space (K := ℚ)).search bruteSolve m ⟨4, 20, ⊤, ⊤⟩ (fun _ c => c)).map
        (fun cfg => (cfg 0, cfg 1)) = .ok (0, 1)) :=
  ⟨bruteSolve_ok, by decide, _, rfl, exNet_valid _ (by decide +kernel) (by decide +kernel), by decide +kernel⟩

/-! ## C21: unreachable targets are reported -/

theorem minCfg_spec {net : Net} {m : ℕ → ℕ} (h : net.minCfg = some m) {i : ℕ} {n : Node}
    (hn : net.nodes[i]? = some n) (hc : n.conf = true) : findMin n.cands = some (m i) := by
  unfold Net.minCfg at h
  split at h
  · exact absurd h (by simp)
  · rename_i l hl
    simp only [Option.some.injEq] at h
    have := (mapM_isSome _ _).mp (Option.isSome_iff_exists.mpr ⟨_, hl⟩) i (mem_confNodes.mpr ⟨n, hn, hc⟩)
    rw [hn] at this
    obtain ⟨j, hj⟩ := Option.isSome_iff_exists.mp this
    simp only [] at hj
    rw [← h]; simp only [hn, hj, Option.getD_some]

theorem minCfg_valid {net : Net} {m : ℕ → ℕ} (h : net.minCfg = some m) : ValidCfg net m := by
  intro i n hn hc
  obtain ⟨c, h1, _⟩ := findMin_le (minCfg_spec h hn hc)
  exact (List.getElem?_eq_some_iff.mp h1).1

/-- The minimal configuration has at most the bits of every configuration. -/
theorem minCfg_le {net : Net} {m : ℕ → ℕ} (h : net.minCfg = some m)
    (cfg : ℕ → ℕ) : net.BitsLe m cfg := by
  intro i hi n hn c c' hc hc'
  obtain ⟨n', hn', hconf⟩ := mem_confNodes.mp hi
  rw [hn] at hn'; injection hn' with e; subst e
  obtain ⟨d, h1, hle⟩ := findMin_le (minCfg_spec h hn hconf)
  rw [hc] at h1; injection h1 with h1; subst h1
  obtain ⟨l1, l2⟩ := hle c' (List.mem_of_getElem? hc')
  exact ⟨fun _ => l1, fun k _ _ => l2 k⟩

/-- C21. When the utilization queries of the search are defined: the search reports that the target
cannot be satisfied exactly when no configuration satisfies it, and otherwise returns a configuration. -/
theorem C21_reported_iff (net : Net) {solve : LP K → Option ((ℕ → ℕ → ℤ) × (ℕ → K))}
    (hs : SolverOk solve) (m : ℕ → ℕ) (hm : net.minCfg = some m) (target : RU K)
    (sens : ℕ → ℕ → K) (hnn : ∀ i c, 0 ≤ sens i c)
    (hdef : ∀ t ∈ target.restricted, ∀ cfg, ValidCfg net cfg → (net.utilVec (K := K) cfg t).isSome)
    (hact : (.activation ∈ target.restricted ∨ .total ∈ target.restricted) → net.actTargets [] ≠ [])
    (hbops : .bops ∈ target.restricted → BopsSeparate net) :
    ((∃ cfg, ValidCfg net cfg ∧ Satisfies net target cfg) →
      ∃ cfg, net.space.search solve m target sens = .ok cfg) ∧
    ((¬ ∃ cfg, ValidCfg net cfg ∧ Satisfies net target cfg) →
      net.space.search solve m target sens = .error .unsatisfiable) := by
  have hmv := minCfg_valid hm
  have hd : (net.space (K := K)).defined m target.restricted = true := by
    unfold Space.defined
    rw [List.all_eq_true]
    intro t ht
    rw [Bool.and_eq_true, List.all_eq_true]
    refine ⟨hdef t ht m hmv, fun l hl => ?_⟩
    rw [List.all_eq_true]
    intro c hc
    obtain ⟨n, hn, _⟩ := mem_confNodes.mp hl
    have hc := List.mem_range.mp hc
    simp only [Net.space, hn] at hc
    exact hdef t ht _ (validCfg_set hmv hn (List.getElem?_eq_getElem hc))
  have hout := search_outcome net.space hs m target sens
    (fun t ht => space_additive net m (valid_iff.mpr hmv) t (fun e => hbops (e ▸ ht))) hd
    (valid_iff.mpr hmv) (fun l _ => hnn l (m l))
  have hsat : ∀ cfg, Satisfies net target cfg ↔ (net.space (K := K)).Meets target cfg := by
    intro cfg
    rw [computeRU_meets net target cfg hact]
    constructor
    · rintro ⟨ru, h1, h2⟩; exact ⟨ru, h1, fun t _ => h2 t⟩
    · rintro ⟨ru, h1, h2⟩
      refine ⟨ru, h1, fun t => ?_⟩
      by_cases ht : t ∈ target.restricted
      · exact h2 t ht
      · rw [mem_restricted, not_lt_top_iff] at ht
        rw [ht]; exact le_top
  have hmono : ∀ cfg, (net.space (K := K)).Meets target cfg → (net.space (K := K)).Meets target m := by
    intro cfg h t ht
    obtain ⟨v, hv, hle⟩ := h t ht
    obtain ⟨u, hu'⟩ := Option.isSome_iff_exists.mp (hdef t ht m hmv)
    refine ⟨u, hu', fun x hx => ?_⟩
    have hf := utilVec_mono (minCfg_le hm cfg) t hu' hv
    obtain ⟨i, hi, rfl⟩ := List.mem_iff_getElem.mp hx
    have hlen := hf.length_eq
    exact (List.Forall₂.get hf hi (by omega)).trans (hle _ (List.getElem_mem _))
  refine ⟨?_, ?_⟩
  · rintro ⟨cfg, _, hc⟩
    rcases hout with ⟨h1, _⟩ | ⟨_, h2⟩
    · exact absurd (hmono cfg ((hsat cfg).mp hc)) h1
    · exact h2
  · intro h
    rcases hout with ⟨_, h2⟩ | ⟨h1, _⟩
    · exact h2
    · exact absurd ⟨m, hmv, (hsat m).mpr h1⟩ h

example : exNet.minCfg.isSome ∧
    (∀ m, exNet.minCfg = some m →
      ((exNet.space (K := ℚ)).search bruteSolve m ⟨3, ⊤, ⊤, ⊤⟩ (fun _ c => c)).map
        (fun cfg => (cfg 0, cfg 1)) = .error .unsatisfiable) :=
  ⟨rfl, fun m hm => by cases hm; decide +kernel⟩

/-! ## C22: greedy refinement -/

/-- C22. Any number of rounds at least `roundBound net` (a number depending on the network only) is
enough for the refinement to end. From a solution within the target it ends in a solution within the
target; every layer has the same candidate bits as before or more (only of the restricted kinds); and
no upgrade of one layer still fits. -/
theorem C22_refinement (net : Net) (target : RU K) (sol : ℕ → ℕ) (hu : Uniform net)
    (hv : ValidCfg net sol) (hsat : Satisfies net target sol)
    (hmax : ∀ (i : ℕ) (n : Node), net.nodes[i]? = some n → n.conf = true → (findMax n.cands).isSome)
    (hdef : ∀ cfg, ValidCfg net cfg → (net.computeRU (K := K) target.restricted cfg).isSome)
    (hb : .bops ∉ target.restricted) (fuel : ℕ) (hfuel : roundBound net ≤ fuel) :
    ∃ aR wR, (aR = true ↔ .activation ∈ target.restricted ∨ .total ∈ target.restricted) ∧
      (wR = true ↔ .weights ∈ target.restricted ∨ .total ∈ target.restricted) ∧
      ∃ res, refine net target fuel sol = some res ∧ ValidCfg net res ∧ Satisfies net target res ∧
        (∀ (i : ℕ) (n : Node), net.nodes[i]? = some n → n.conf = true →
          ∃ c0 c1, n.cands[sol i]? = some c0 ∧ n.cands[res i]? = some c1 ∧
            (c1 = c0 ∨ Upgrade aR wR c0 c1)) ∧
        (∀ (i : ℕ) (n : Node), net.nodes[i]? = some n → n.conf = true →
          ∀ c0, n.cands[res i]? = some c0 → ∀ j c, n.cands[j]? = some c → Upgrade aR wR c0 c →
            ¬ Satisfies net target (setCfg res i j)) := by
  refine ⟨decide (.activation ∈ target.restricted) || decide (.total ∈ target.restricted),
    decide (.weights ∈ target.restricted) || decide (.total ∈ target.restricted), by simp, by simp, ?_⟩
  obtain ⟨ru, hru, hle⟩ := hsat
  obtain ⟨res, h1, h2, h3, h4, h5⟩ := refineLoop_spec (ru := net.computeRU target.restricted)
    ⟨hu, hmax, hdef⟩ target (decide (.activation ∈ target.restricted) || decide (.total ∈ target.restricted))
    (decide (.weights ∈ target.restricted) || decide (.total ∈ target.restricted)) fuel sol hv
    ⟨ru, hru, (satisfiedBy_iff _ _).mpr hle⟩ (by omega)
  refine ⟨res, ?_, h2, ?_, ?_, ?_⟩
  · unfold refine; rw [if_neg hb]; exact h1
  · obtain ⟨r, hr, hs⟩ := h3
    exact ⟨r, hr, (satisfiedBy_iff _ _).mp hs⟩
  · intro i n hn hc
    have e0 := List.getElem?_eq_getElem (hv i n hn hc)
    have e1 := List.getElem?_eq_getElem (h2 i n hn hc)
    refine ⟨_, _, e0, e1, ?_⟩
    rcases h5 i n hn hc _ _ e0 e1 with h | h
    · exact Or.inl h.symm
    · exact Or.inr h
  · rintro i n hn hc c0 hc0 j c hj hup ⟨r, hr, hs⟩
    exact h4 i j r ⟨n, c0, c, hn, hc, hc0, hj, hup, hr, (satisfiedBy_iff _ _).mpr hs⟩

/-- C22, the choice made in one round: among all the upgrades of one layer that fit, one with the least
total memory, then weights memory, then activation memory. -/
theorem C22_greedy_choice (net : Net) (target : RU K) (aR wR : Bool) (sol sol' : ℕ → ℕ) (hu : Uniform net)
    (hv : ValidCfg net sol)
    (hmax : ∀ (i : ℕ) (n : Node), net.nodes[i]? = some n → n.conf = true → (findMax n.cands).isSome)
    (hdef : ∀ cfg, ValidCfg net cfg → (net.computeRU (K := K) target.restricted cfg).isSome)
    (h : refineRound net (net.computeRU target.restricted) target aR wR sol = some (some sol')) :
    ∃ i c r, sol' = setCfg sol i c ∧ net.computeRU target.restricted sol' = some r ∧
      (∀ t, r.get t ≤ target.get t) ∧
      ∀ i' c' (n : Node) c0 c1 r', net.nodes[i']? = some n → n.conf = true → n.cands[sol i']? = some c0 →
        n.cands[c']? = some c1 → Upgrade aR wR c0 c1 →
        net.computeRU target.restricted (setCfg sol i' c') = some r' → (∀ t, r'.get t ≤ target.get t) →
        r.total < r'.total ∨ (r.total = r'.total ∧ (r.weights < r'.weights ∨
          (r.weights = r'.weights ∧ r.activation ≤ r'.activation))) := by
  rcases refineRound_spec (ru := net.computeRU target.restricted) ⟨hu, hmax, hdef⟩ target aR wR hv with
    ⟨h1, _⟩ | ⟨i, c, r, h1, h2, h3⟩
  · rw [h1] at h; exact absurd h (by simp)
  · rw [h1] at h
    simp only [Option.some.injEq] at h
    obtain ⟨n, c0, c1, _, _, _, _, _, hr, hs⟩ := h2
    refine ⟨i, c, r, h.symm, by rw [← h]; exact hr, (satisfiedBy_iff _ _).mp hs, ?_⟩
    intro i' c' n' d0 d1 r' hn' hconf' hd0 hd1 hup hr' hle'
    have := h3 i' c' r' ⟨n', d0, d1, hn', hconf', hd0, hd1, hup, hr', (satisfiedBy_iff _ _).mpr hle'⟩
    unfold RU.key at this
    rw [Prod.Lex.toLex_le_toLex, Prod.Lex.toLex_le_toLex] at this
    exact this

/-- The hypotheses hold, and a refinement changes something: with 8 bytes of weights allowed, the
minimal configuration is refined at the kernel, not at the input. -/
example : Uniform exNet ∧ ValidCfg exNet (fun _ => 1) ∧
    (∀ (i : ℕ) (n : Node), exNet.nodes[i]? = some n → n.conf = true → (findMax n.cands).isSome) ∧
    roundBound exNet ≤ 200 ∧
    (refine (K := ℚ) exNet ⟨8, ⊤, ⊤, ⊤⟩ 200 (fun _ => 1)).map (fun r => (r 0, r 1)) = some (1, 0) :=
  ⟨exNet_uniform, exNet_valid _ (by decide) (by decide), by
    intro i n hn _
    match i with
    | 0 => simp only [exNet, List.getElem?_cons_zero, Option.some.injEq] at hn; subst hn; rfl
    | 1 => simp [exNet] at hn; subst hn; rfl
    | i + 2 => simp [exNet] at hn, by decide, by decide +kernel⟩

/-! ## C23: extremal candidates -/

/-- C23. The minimal candidate is reported exactly when one candidate has the fewest activation bits and
the fewest bits of every weight attribute, and no other candidate has the same bits; then it is this
candidate. -/
theorem C23_min (cands : List Cand) (n : ℕ) (hn : ∀ c ∈ cands, c.wBits.length = n) (i : ℕ) :
    findMin cands = some i ↔ ∃ c, OnlyAt cands i c ∧
      ∀ c' ∈ cands, c.aBits ≤ c'.aBits ∧ ∀ k < n, c.w k ≤ c'.w k :=
  findMin_iff cands n hn i

/-- C23, maximal candidate. -/
theorem C23_max (cands : List Cand) (n : ℕ) (hn : ∀ c ∈ cands, c.wBits.length = n) (i : ℕ) :
    findMax cands = some i ↔ ∃ c, OnlyAt cands i c ∧
      ∀ c' ∈ cands, c'.aBits ≤ c.aBits ∧ ∀ k < n, c'.w k ≤ c.w k :=
  findMax_iff cands n hn i

example : findMin [⟨8, [8, 4]⟩, ⟨4, [4, 2]⟩, ⟨8, [4, 2]⟩] = some 1 ∧
    findMax [⟨8, [4]⟩, ⟨4, [8]⟩] = none ∧ findMin [⟨4, [4]⟩, ⟨4, [4]⟩] = none := by decide

/-! ## C24: weights memory -/

theorem uniqueBits_const {bs : List ℕ} {b : ℕ} (hne : bs ≠ []) (h : ∀ x ∈ bs, x = b) :
    uniqueBits bs = some b := by
  unfold uniqueBits
  have : bs.dedup = [b] := by
    have hnd := List.nodup_dedup bs
    have hmem : ∀ x ∈ bs.dedup, x = b := fun x hx => h x (List.mem_dedup.mp hx)
    obtain ⟨a, l, hal⟩ := List.exists_cons_of_ne_nil hne
    have ha : a ∈ bs.dedup := by rw [List.mem_dedup, hal]; simp
    match hd : bs.dedup with
    | [] => rw [hd] at ha; simp at ha
    | [x] => rw [hmem x (by rw [hd]; simp)]
    | x :: y :: r =>
      rw [hd] at hnd hmem
      have := hmem x (by simp)
      have := hmem y (by simp)
      simp_all
  rw [this]

theorem nodeWeights_formula (net : Net) (cfg : ℕ → ℕ) (hv : ValidCfg net cfg) {i : ℕ} {n : Node}
    (hn : net.nodes[i]? = some n) (hf : FixedAgree n) :
    net.nodeWeights (K := K) cfg i = some (nodeBytes cfg i n) := by
  unfold Net.nodeWeights
  rw [hn]
  simp only []
  unfold Node.countedAttrs nodeBytes
  by_cases hr : n.reuse = true
  · rw [if_pos hr, if_pos hr]; rfl
  · rw [if_neg hr, if_neg hr]
    have hr' : n.reuse = false := by simpa using hr
    -- bits of a quantized attribute
    have hbits : ∀ (k size : ℕ), n.attrs[k]? = some (size, true) →
        ∃ c, selected cfg i n = some c ∧ net.weightBits cfg i k = some (c.w k) := by
      intro k size hk
      unfold Net.weightBits selected
      rw [hn]; simp only [hk]
      by_cases hc : n.conf = true
      · have := List.getElem?_eq_getElem (hv i n hn hc)
        simp [hc, this]
      · obtain ⟨hne, hag⟩ := hf (by simpa using hc) hr'
        obtain ⟨a, l, hal⟩ := List.exists_cons_of_ne_nil hne
        refine ⟨a, by simp [hc, hal], ?_⟩
        rw [if_neg hc]
        simp only [if_true]
        apply uniqueBits_const (by simp [hal])
        intro x hx
        obtain ⟨c, hcm, rfl⟩ := List.mem_map.mp hx
        exact hag k size hk c hcm a (by rw [hal]; simp)
    have hgen : ∀ ks : List ℕ, (∀ k ∈ ks, k < n.attrs.length) →
        sumM (fun p : ℕ × ℕ => (net.weightBits cfg i p.1).map fun (b : ℕ) => (p.2 : K) * (b : K) / 8)
          ((ks.zip (ks.map fun k => n.attrs.getD k (0, false))).filterMap fun p =>
            if p.2.2 then some (p.1, p.2.1) else none) =
        some ((ks.map fun k => match n.attrs[k]?, selected cfg i n with
          | some (size, true), some c => (size : K) * (c.w k : K) / 8
          | _, _ => 0).sum) := by
      intro ks hks
      induction ks with
      | nil => rfl
      | cons k ks ih =>
        have ih := ih fun k hk => hks k (List.mem_cons_of_mem _ hk)
        have hk := hks k (by simp)
        have hget : n.attrs[k]? = some n.attrs[k] := List.getElem?_eq_getElem hk
        have hgd : n.attrs.getD k (0, false) = n.attrs[k] := List.getD_eq_getElem _ _ hk
        rw [List.map_cons, List.zip_cons_cons, List.map_cons, List.sum_cons, hgd]
        rcases hak : n.attrs[k] with ⟨size, q⟩
        rw [hak] at hget
        cases q with
        | false =>
          simp only [List.filterMap_cons, Bool.false_eq_true, if_false, hget, zero_add]
          exact ih
        | true =>
          obtain ⟨c, hc1, hc2⟩ := hbits k size hget
          simp only [List.filterMap_cons, if_true, hget, hc1] at ih ⊢
          unfold sumM at ih ⊢
          rw [List.mapM_cons, hc2]
          simp only [Option.map_some]
          obtain ⟨r, hr1, hr2⟩ := Option.map_eq_some_iff.mp ih
          rw [hr1]
          simp only [Option.pure_def, Option.bind_eq_bind, Option.bind_some, Option.map_some, List.sum_cons]
          rw [hr2]
    have h0 := hgen (List.range n.attrs.length) (fun k hk => List.mem_range.mp hk)
    have hattrs : (List.range n.attrs.length).map (fun k => n.attrs.getD k (0, false)) = n.attrs := by
      apply List.ext_getElem (by simp)
      intro k h1 h2
      simp [List.getElem?_eq_getElem h2]
    rw [hattrs] at h0
    exact h0

/-- C24. Weights memory is the sum over the nodes of: zero for a reused node, else size times selected
bits over eight for each quantized attribute. -/
theorem C24_weights_formula (net : Net) (cfg : ℕ → ℕ) (hv : ValidCfg net cfg)
    (hf : ∀ n ∈ net.nodes, FixedAgree n) :
    net.weights (K := K) cfg = some ((net.nodes.zipIdx.map fun p => nodeBytes cfg p.2 p.1).sum) := by
  unfold Net.weights sumM
  have : (List.range net.nodes.length).mapM (net.nodeWeights (K := K) cfg) =
      some ((List.range net.nodes.length).map fun i =>
        ((net.nodes[i]?).map fun n => nodeBytes (K := K) cfg i n).getD 0) := by
    apply mapM_total
    intro i hi
    have hi := List.mem_range.mp hi
    have hn := List.getElem?_eq_getElem hi
    rw [nodeWeights_formula net cfg hv hn (hf _ (List.getElem_mem hi)), hn]; rfl
  rw [this, Option.map_some]
  congr 2
  apply List.ext_getElem
  · simp
  · intro i h1 h2
    simp only [List.length_map, List.length_range] at h1
    simp [List.getElem?_eq_getElem h1]

/-- C24. Weights memory is monotone: a configuration with at most the bits of another one at every layer
takes at most its memory. -/
theorem C24_monotone (net : Net) (cfg cfg' : ℕ → ℕ)
    (h : ∀ (i : ℕ) (n : Node) (c c' : Cand), net.nodes[i]? = some n → n.conf = true →
      n.cands[cfg i]? = some c → n.cands[cfg' i]? = some c' →
      c.aBits ≤ c'.aBits ∧ ∀ k, c.w k ≤ c'.w k) (a b : K)
    (ha : net.weights cfg = some a) (hb : net.weights cfg' = some b) : a ≤ b :=
  weights_mono (fun i hi n hn c c' hc hc' => by
    obtain ⟨n', hn', hconf⟩ := mem_confNodes.mp hi
    rw [hn] at hn'; injection hn' with e; subst e
    obtain ⟨h1, h2⟩ := h i n c c' hn hconf hc hc'
    exact ⟨fun _ => h1, fun k _ _ => h2 k⟩) ha hb

/-- A network with a reused copy of the convolution: the copy adds nothing. -/
example : exNet.weights (K := ℚ) (fun _ => 0) = some 8 ∧ exNet.weights (K := ℚ) (fun _ => 1) = some 4 ∧
    ({ exNet with nodes := exNet.nodes ++
      [{ (exNet.nodes[1]'(by decide)) with reuse := true, prev := [1] }] } : Net).weights (K := ℚ) (fun _ => 0) =
      some 8 ∧
    (∀ n ∈ exNet.nodes, FixedAgree n) := by
  refine ⟨by decide +kernel, by decide +kernel, by decide +kernel, ?_⟩
  intro n hn hc
  simp only [exNet, List.mem_cons, List.not_mem_nil, or_false] at hn
  rcases hn with rfl | rfl
  · exact absurd hc (by decide)
  · exact absurd hc (by decide)

/-! ## C25: activation and total memory -/

/-- C25. Memory of one cut: each of its quantized tensors is counted once, with the size of the tensor
and the bits of the node that quantizes it. -/
theorem C25_cut (net : Net) (cfg : ℕ → ℕ) (cut : List ℕ) (hne : cut ≠ []) (a : K)
    (h : net.cutUtil cfg cut = some a) :
    ∃ ts : List ℕ, ts.Nodup ∧
      (∀ i, i ∈ ts ↔ i ∈ cut ∧ ∃ n, net.nodes[i]? = some n ∧ (n.mode = .quant ∨ n.mode = .preserve) ∧
        n.inner = false) ∧
      ∃ bits : ℕ → ℕ, (∀ i ∈ ts, net.actBits cfg i = some (bits i)) ∧
        a = (ts.map fun i => (((net.nodes[i]?).map Node.actSize).getD 0 : K) * (bits i : K) / 8).sum := by
  unfold Net.cutUtil at h
  refine ⟨(net.actTargets cut).dedup, List.nodup_dedup _, ?_, fun i => (net.actBits cfg i).getD 0, ?_, ?_⟩
  · intro i
    rw [List.mem_dedup]
    unfold Net.actTargets Net.isActTarget
    rw [if_neg hne, List.mem_filter]
    constructor
    · rintro ⟨h1, h2⟩
      rcases hn : net.nodes[i]? with _ | n
      · rw [hn] at h2; simp at h2
      · rw [hn] at h2; simp only [Bool.and_eq_true, Bool.or_eq_true, decide_eq_true_eq, Bool.not_eq_true'] at h2
        exact ⟨h1, n, rfl, h2.1, h2.2⟩
    · rintro ⟨h1, n, hn, h2, h3⟩
      refine ⟨h1, ?_⟩
      rw [hn]; simp only [Bool.and_eq_true, Bool.or_eq_true, decide_eq_true_eq, Bool.not_eq_true']
      exact ⟨h2, h3⟩
  · intro i hi
    have := (sumM_isSome _ _).mp (by rw [h]; rfl) i hi
    unfold Net.nodeAct at this
    rcases hn : net.nodes[i]? with _ | n
    · rw [hn] at this; simp at this
    · rw [hn] at this
      simp only [Option.isSome_map] at this
      obtain ⟨b, hb⟩ := Option.isSome_iff_exists.mp this
      simp [hb]
  · have h2 := sumM_getD _ _ (by rw [h]; rfl : (sumM (net.nodeAct (K := K) cfg) (net.actTargets cut).dedup).isSome)
    rw [h] at h2
    injection h2 with h2
    rw [h2]
    congr 1
    apply List.map_congr_left
    intro i hi
    have := (sumM_isSome _ _).mp (by rw [h]; rfl) i hi
    unfold Net.nodeAct at this ⊢
    rcases hn : net.nodes[i]? with _ | n
    · rw [hn] at this; simp at this
    · rw [hn] at this
      simp only [Option.isSome_map] at this ⊢
      obtain ⟨b, hb⟩ := Option.isSome_iff_exists.mp this
      rw [hb]; rfl

/-- C25. Activation memory is that of the largest cut: it is the memory of some cut, and no cut with a
quantized tensor takes more. -/
theorem C25_max (net : Net) (cfg : ℕ → ℕ) (hact : net.actTargets [] ≠ []) (a : K)
    (h : net.actTotal cfg = some a) :
    (∃ cut ∈ net.cuts, net.cutUtil cfg cut = some a) ∧
    ∀ cut ∈ net.cuts, net.actTargets cut ≠ [] → ∃ b, net.cutUtil cfg cut = some b ∧ b ≤ a := by
  rw [actTotal_eq net hact] at h
  obtain ⟨l, hl, hm⟩ := Option.bind_eq_some_iff.mp h
  have hsome : (net.actPerCut (K := K) cfg).isSome := by rw [hl]; rfl
  have hl' := actPerCut_eq net cfg hsome
  rw [hl] at hl'; injection hl' with hl'
  have hused : net.usedCuts = net.cuts.filter fun c => decide (net.actTargets c ≠ []) := by
    unfold Net.usedCuts; rw [if_neg hact]
  obtain ⟨m1, m2⟩ := listMax_spec hm
  have hval : ∀ cut ∈ net.usedCuts, net.cutUtil (K := K) cfg cut =
      some ((net.cutUtil (K := K) cfg cut).getD 0) := by
    intro cut hc
    obtain ⟨b, hb⟩ := Option.isSome_iff_exists.mp ((actPerCut_isSome net cfg).mp hsome cut hc)
    rw [hb]; rfl
  refine ⟨?_, ?_⟩
  · rw [hl'] at m1
    obtain ⟨cut, hc, he⟩ := List.mem_map.mp m1
    refine ⟨cut, ?_, by rw [hval cut hc, he]⟩
    rw [hused] at hc; exact (List.mem_filter.mp hc).1
  · intro cut hc ht
    have hcu : cut ∈ net.usedCuts := by
      rw [hused]; exact List.mem_filter.mpr ⟨hc, decide_eq_true ht⟩
    refine ⟨_, hval cut hcu, ?_⟩
    apply (m2 a).mp le_rfl
    rw [hl']; exact List.mem_map_of_mem (f := fun cut => (net.cutUtil (K := K) cfg cut).getD 0) hcu

/-- C25. Total memory is weights memory plus activation memory. -/
theorem C25_total (net : Net) (cfg : ℕ → ℕ) (ts : List Target) (ru : RU K) (ht : .total ∈ ts)
    (h : net.computeRU ts cfg = some ru) :
    ∃ w a : K, net.weights cfg = some w ∧ net.actTotal cfg = some a ∧ ru.total = ((w + a : K) : WithTop K) ∧
      (.weights ∈ ts → ru.weights = (w : K)) ∧ (.activation ∈ ts → ru.activation = (a : K)) := by
  unfold Net.computeRU at h
  rcases e1 : ifReq ts .weights (net.weights (K := K) cfg) with _ | y1
  · rw [e1] at h; exact absurd h (by simp)
  rcases e2 : ifReq ts .activation (net.actTotal (K := K) cfg) with _ | y2
  · rw [e1, e2] at h; exact absurd h (by simp)
  rcases e3 : ifReq ts .total ((net.weights (K := K) cfg).bind fun w =>
      (net.actTotal cfg).map fun a => w + a) with _ | y3
  · rw [e1, e2, e3] at h; exact absurd h (by simp)
  rcases e4 : ifReq ts .bops (net.bops (K := K) cfg) with _ | y4
  · rw [e1, e2, e3, e4] at h; exact absurd h (by simp)
  rw [e1, e2, e3, e4] at h
  simp only [Option.some.injEq] at h
  subst h
  unfold ifReq at e1 e2 e3
  rw [if_pos ht] at e3
  obtain ⟨x, hx, rfl⟩ := Option.map_eq_some_iff.mp e3
  obtain ⟨w, hw, hx⟩ := Option.bind_eq_some_iff.mp hx
  obtain ⟨a, ha, rfl⟩ := Option.map_eq_some_iff.mp hx
  refine ⟨w, a, hw, ha, rfl, fun hr => ?_, fun hr => ?_⟩
  · rw [if_pos hr, hw] at e1; simpa using e1.symm
  · rw [if_pos hr, ha] at e2; simpa using e2.symm

example : exNet.actTargets [] ≠ [] ∧ exNet.actTotal (K := ℚ) (fun _ => 0) = some 20 ∧
    exNet.cutUtil (K := ℚ) (fun _ => 0) [0] = some 16 ∧
    (∃ ru, exNet.computeRU (K := ℚ) [.total] (fun _ => 0) = some ru ∧ ru.total = 28) :=
  ⟨by decide, by decide +kernel, by decide +kernel, _, rfl, by decide +kernel⟩

/-! ## C26: checking a target -/

/-- C26. The check holds exactly when each of the four values is at most the target's; an unrestricted
target (infinity) never fails. -/
theorem C26_satisfied (target ru : RU K) :
    (target.satisfiedBy ru = true ↔ ru.weights ≤ target.weights ∧ ru.activation ≤ target.activation ∧
      ru.total ≤ target.total ∧ ru.bops ≤ target.bops) ∧
    (target.weights = ⊤ ∧ target.activation = ⊤ ∧ target.total = ⊤ ∧ target.bops = ⊤ →
      target.satisfiedBy ru = true) ∧
    (∀ t, t ∈ target.restricted ↔ target.get t ≠ ⊤) := by
  have h : target.satisfiedBy ru = true ↔ ru.weights ≤ target.weights ∧ ru.activation ≤ target.activation ∧
      ru.total ≤ target.total ∧ ru.bops ≤ target.bops := by
    unfold RU.satisfiedBy
    simp only [Bool.and_eq_true, decide_eq_true_eq, and_assoc]
  refine ⟨h, ?_, fun t => by rw [mem_restricted, lt_top_iff_ne_top]⟩
  rintro ⟨h1, h2, h3, h4⟩
  rw [h, h1, h2, h3, h4]
  exact ⟨le_top, le_top, le_top, le_top⟩

example : (⟨4, ⊤, ⊤, 5⟩ : RU ℚ).satisfiedBy ⟨4, 100, ⊤, 3⟩ = true ∧
    (⟨4, ⊤, ⊤, 5⟩ : RU ℚ).satisfiedBy ⟨4, 100, ⊤, ⊤⟩ = false := by decide +kernel

/-! ## C57: every layer gets the selected candidate -/

/-- C57. With distinct node names, a configurable node that is not reused gets the candidate selected for
it; a reused node named after a configurable base node as `<base>_reused_<i>` gets the candidate selected
for the base. Missing: other names of reused nodes (`C57_reused_name_violated`). -/
theorem C57_selected_partial (net : Net) (name : ℕ → List String) (cfg : ℕ → ℕ)
    (hinj : ∀ i j, i < net.nodes.length → j < net.nodes.length → name i = name j → i = j)
    (i : ℕ) (n : Node) (hn : net.nodes[i]? = some n) :
    (n.reuse = false → n.conf = true → net.finalIndex name cfg i = cfg i) ∧
    (∀ (b : ℕ) (s t : String), n.reuse = true → b ∈ net.confNodes → name i = name b ++ [s, t] →
      net.finalIndex name cfg i = cfg b) := by
  have hlt : ∀ j ∈ net.confNodes, j < net.nodes.length := by
    intro j hj
    obtain ⟨n', hn', _⟩ := mem_confNodes.mp hj
    exact (List.getElem?_eq_some_iff.mp hn').1
  have hfind : ∀ b ∈ net.confNodes, (net.confNodes.find? fun j => decide (name j = name b)) = some b := by
    intro b hb
    rcases hf : (net.confNodes.find? fun j => decide (name j = name b)) with _ | j
    · rw [List.find?_eq_none] at hf
      exact absurd (hf b hb) (by simp)
    · have h1 := List.mem_of_find?_eq_some hf
      have h2 : name j = name b := by simpa using List.find?_some hf
      rw [hinj j b (hlt j h1) (hlt b hb) h2]
  refine ⟨fun hr hc => ?_, fun b s t hr hb hname => ?_⟩
  · unfold Net.finalIndex
    rw [hn]
    simp only [hr, Bool.false_eq_true, if_false]
    rw [hfind i (mem_confNodes.mpr ⟨n, hn, hc⟩)]
  · unfold Net.finalIndex
    rw [hn]
    have : dropTwo (name i) = name b := by
      unfold dropTwo; rw [hname]; simp
    simp only [hr, if_true, this]
    rw [hfind b hb]

/-- Two uses of one convolution. -/
def exReuse : Net where
  nodes := [
    { reuse := false, attrs := [(8, true)], kernel := some 0,
      cands := [⟨8, [8]⟩, ⟨8, [4]⟩], mode := .quant, actSize := 4, inner := false, macs := 32, prev := [] },
    { reuse := true, attrs := [(8, true)], kernel := some 0,
      cands := [⟨8, [8]⟩, ⟨8, [4]⟩], mode := .quant, actSize := 4, inner := false, macs := 32, prev := [0] }]
  cuts := [[0], [1]]

/-- C57 is false of the code for reused PyTorch layers, which are named `conv`, `conv_1`: dropping the two
last parts of `conv_1` does not give `conv`, and the reused layer gets candidate 0 (8 bits) although the
layer it shares its weights with gets candidate 1 (4 bits). -/
theorem C57_reused_name_violated :
    exReuse.confNodes = [0] ∧
    exReuse.finalIndex (fun i => if i = 0 then ["conv"] else ["conv", "1"]) (fun _ => 1) 0 = 1 ∧
    exReuse.finalIndex (fun i => if i = 0 then ["conv"] else ["conv", "1"]) (fun _ => 1) 1 = 0 := by
  decide

example : exReuse.finalIndex (fun i => if i = 0 then ["conv"] else ["conv", "reused", "1"]) (fun _ => 1) 1 = 1 := by
  decide

/-! ## C58: enough room gives the maximal configuration -/

theorem sum_lt_of_le_of_lt {l : List ℕ} {f g : ℕ → K} (h : ∀ i ∈ l, f i ≤ g i) {j : ℕ} (hj : j ∈ l)
    (hlt : f j < g j) : (l.map f).sum < (l.map g).sum := by
  induction l with
  | nil => simp at hj
  | cons a l ih =>
    simp only [List.map_cons, List.sum_cons]
    have hl : (l.map f).sum ≤ (l.map g).sum :=
      List.sum_le_sum fun i hi => h i (List.mem_cons_of_mem _ hi)
    have ha := h a (by simp)
    rcases List.mem_cons.mp hj with rfl | hj
    · linarith
    · have := ih (fun i hi => h i (List.mem_cons_of_mem _ hi)) hj
      linarith

/-- C58. If the configuration with the maximal candidate everywhere is within the target, the search
returns it (with a positive `metric_epsilon`, the default). -/
theorem C58_max_config (net : Net) {solve : LP K → Option ((ℕ → ℕ → ℤ) × (ℕ → K))}
    (hs : SolverOk solve) (m mx : ℕ → ℕ) (hmv : ValidCfg net m)
    (hmx : ∀ (i : ℕ) (n : Node), net.nodes[i]? = some n → n.conf = true → findMax n.cands = some (mx i))
    (hu : Uniform net)
    (target : RU K) (raw : ℕ → ℕ → K) (hnn : ∀ i c, 0 ≤ raw i c) (eps thr : K) (heps : 0 < eps) (hthr : 0 < thr)
    (sens' : ℕ → ℕ → K)
    (hfin : finalizeMetric thr net.confNodes (net.space (K := K)).ncand
      (fun i => ensureMaxMinimal (some eps) (mx i) (raw i)) = some sens')
    (hact : (.activation ∈ target.restricted ∨ .total ∈ target.restricted) → net.actTargets [] ≠ [])
    (hbops : .bops ∈ target.restricted → BopsSeparate net)
    (hsat : Satisfies net target mx)
    (cfg : ℕ → ℕ) (h : (net.space (K := K)).search solve m target sens' = .ok cfg) :
    ∀ i ∈ net.confNodes, cfg i = mx i := by
  have hmxv : ValidCfg net mx := by
    intro i n hn hc
    have hmax := hmx i n hn hc
    cases hcs : n.cands with
    | nil => rw [hcs] at hmax; simp [findMax, lexMax] at hmax
    | cons a l =>
      obtain ⟨c, ⟨h1, _⟩, _⟩ := (findMax_iff n.cands a.wBits.length
        (fun c hc => hu i n hn c hc a (by rw [hcs]; simp)) (mx i)).mp hmax
      rw [← hcs]; exact (List.getElem?_eq_some_iff.mp h1).1
  obtain ⟨k, hk, hsc⟩ := finalizeMetric_scale hthr hfin
  obtain ⟨_, _, h3⟩ := search_ok net.space hs m target sens' cfg
    (fun t ht => space_additive net m (valid_iff.mpr hmv) t (fun e => hbops (e ▸ ht))) h
  obtain ⟨ru, hru, hle⟩ := hsat
  have hval : ∀ i c, ensureMaxMinimal (some eps) (mx i) (raw i) (mx i) = raw i (mx i) ∧
      (c ≠ mx i → raw i (mx i) < ensureMaxMinimal (some eps) (mx i) (raw i) c) := by
    intro i c
    unfold ensureMaxMinimal
    refine ⟨by simp, fun hc => ?_⟩
    simp only [if_neg hc]
    exact lt_of_lt_of_le (by linarith) (le_max_right _ _)
  have hopt := h3 mx (valid_iff.mpr hmxv) ((computeRU_meets net target mx hact).mpr ⟨ru, hru, fun t _ => hle t⟩)
    (fun l _ => by
      rw [hsc]; refine mul_nonneg ?_ hk.le
      rw [(hval l 0).1]; exact hnn _ _)
  by_contra hcon
  push Not at hcon
  obtain ⟨j, hj, hne⟩ := hcon
  have hlt : ((net.space (K := K)).layers.map fun l => sens' l (mx l)).sum <
      ((net.space (K := K)).layers.map fun l => sens' l (cfg l)).sum := by
    apply sum_lt_of_le_of_lt (j := j) _ hj
    · rw [hsc, hsc]
      rw [(hval j 0).1]
      exact mul_lt_mul_of_pos_right ((hval j _).2 hne) hk
    · intro i _
      rw [hsc, hsc]
      rw [(hval i 0).1]
      apply mul_le_mul_of_nonneg_right _ hk.le
      by_cases e : cfg i = mx i
      · rw [e, (hval i 0).1]
      · exact ((hval i _).2 e).le
  exact absurd hopt (not_le.mpr hlt)

/-- With raw sensitivities that prefer few bits, a target that fits everything still gives candidate 0. -/
example :
    ((exNet.space (K := ℚ)).search bruteSolve (fun _ => 1) ⟨8, 20, ⊤, ⊤⟩
      (fun _ => ensureMaxMinimal (some (1/1000000)) 0 (fun c => if c = 0 then 5 else 1))).map
      (fun cfg => (cfg 0, cfg 1)) = .ok (0, 0) ∧
    (∃ ru, exNet.computeRU (K := ℚ) [.weights, .activation] (fun _ => 0) = some ru ∧ ru.weights = 8 ∧
      ru.activation = 20) :=
  ⟨by decide +kernel, _, rfl, by decide +kernel, by decide +kernel⟩

end MCT.MP
