import Verif.MP.Solver
import Mathlib.Tactic.Tauto

set_option linter.unusedSectionVars false

/-! # BOPS, and the step from utilization vectors to a resource utilization -/

namespace MCT.MP

open MCT.MPSpec

variable {K : Type*} [Field K] [LinearOrder K] [IsStrictOrderedRing K]

/-- As `sumM_additive`, for configurations in a set. -/
theorem sumM_additive_on {α : Type*} {U : List ℕ} (hU : U.Nodup) {m cfg : ℕ → ℕ} (l : List α)
    (P : (ℕ → ℕ) → Prop) (hPm : P m) (hPc : P cfg) (hPu : ∀ u ∈ U, P (setCfg m u (cfg u)))
    (f : α → (ℕ → ℕ) → Option K)
    (hloc : ∀ x ∈ l, (∃ j ∈ U, ∀ c c' : ℕ → ℕ, P c → P c' → c j = c' j → f x c = f x c') ∨
      (∀ c c' : ℕ → ℕ, P c → P c' → f x c = f x c'))
    (hm : (sumM (fun x => f x m) l).isSome)
    (hu : ∀ u ∈ U, (sumM (fun x => f x (setCfg m u (cfg u))) l).isSome) :
    (sumM (fun x => f x cfg) l).isSome ∧
    AddAt U m cfg (fun c => (sumM (fun x => f x c) l).getD 0) := by
  have hsome : ∀ x ∈ l, (f x cfg).isSome := by
    intro x hx
    rcases hloc x hx with ⟨j, hj, h⟩ | h
    · rw [h cfg (setCfg m j (cfg j)) hPc (hPu j hj) (setCfg_same m j (cfg j)).symm]
      exact (sumM_isSome _ _).mp (hu j hj) x hx
    · rw [h cfg m hPc hPm]
      exact (sumM_isSome _ _).mp hm x hx
  have hc : (sumM (fun x => f x cfg) l).isSome := (sumM_isSome _ _).mpr hsome
  refine ⟨hc, ?_⟩
  have hadd : AddAt U m cfg (fun c => (l.map fun x => (f x c).getD 0).sum) := by
    apply AddAt.listSum l (fun x c => (f x c).getD 0)
    intro x hx
    rcases hloc x hx with ⟨j, hj, h⟩ | h
    · apply AddAt.local hU hj
      · rw [h _ _ (hPu j hj) hPc (setCfg_same m j (cfg j))]
      · intro u hu' huj
        rw [h _ _ (hPu u hu') hPm (setCfg_ne m (cfg u) huj.symm)]
    · exact AddAt.const _ _ _ _ (by rw [h cfg m hPc hPm]) (fun u hu' => by rw [h _ m (hPu u hu') hPm])
  unfold AddAt at hadd ⊢
  simp only [] at hadd ⊢
  rw [sumM_getD _ _ hc, sumM_getD _ _ hm, Option.getD_some, Option.getD_some, hadd]
  congr 2
  apply List.map_congr_left
  intro u hu'
  rw [sumM_getD _ _ (hu u hu'), Option.getD_some]

theorem allEqual_iff (l : List ℕ) : allEqual l = true ↔ ∀ a ∈ l, ∀ b ∈ l, a = b := by
  cases l with
  | nil => simp [allEqual]
  | cons x l =>
    simp only [allEqual, List.all_eq_true, decide_eq_true_eq]
    constructor
    · intro h a ha b hb
      have : ∀ y ∈ x :: l, y = x := by
        intro y hy
        rcases List.mem_cons.mp hy with e | e
        · exact e
        · exact h y e
      rw [this a ha, this b hb]
    · intro h b hb
      exact h b (List.mem_cons_of_mem _ hb) x (by simp)

/-- The bits read for the activation of `i` in valid configurations depend on at most one layer. -/
theorem actBits_local (net : Net) (i : ℕ) :
    (∃ j n, net.preserved (net.nodes.length + 1) i = some j ∧ net.nodes[j]? = some n ∧
        n.confAct = true ∧ j ∈ net.confNodes ∧
        ∀ c c' : ℕ → ℕ, c j = c' j → net.actBits c i = net.actBits c' i) ∨
    (∀ c c' : ℕ → ℕ, (net.space (K := K)).Valid c → (net.space (K := K)).Valid c' →
      net.actBits c i = net.actBits c' i) := by
  by_cases h : ∃ j n, net.preserved (net.nodes.length + 1) i = some j ∧ net.nodes[j]? = some n ∧
      n.confAct = true
  · obtain ⟨j, n, hp, hn, hc⟩ := h
    refine Or.inl ⟨j, n, hp, hn, hc, mem_confNodes.mpr ⟨n, hn, by simp [Node.conf, hc]⟩, ?_⟩
    intro c c' e
    apply actBits_congr
    intro j' hp' _
    rw [hp] at hp'; injection hp' with hp'; rw [← hp']; exact e
  · refine Or.inr fun c c' hv hv' => ?_
    unfold Net.actBits
    rcases hp : net.preserved (net.nodes.length + 1) i with _ | j
    · rfl
    · simp only []
      rcases hn : net.nodes[j]? with _ | n
      · rfl
      · simp only []
        have hca : ¬ n.confAct = true := fun hc => h ⟨j, n, hp, hn, hc⟩
        by_cases hc : n.conf = true
        · have hj : j ∈ net.confNodes := mem_confNodes.mpr ⟨n, hn, hc⟩
          have l1 := hv j hj
          have l2 := hv' j hj
          simp only [Net.space, hn] at l1 l2
          rw [if_pos hc, if_pos hc, List.getElem?_eq_getElem l1, List.getElem?_eq_getElem l2]
          simp only []
          split_ifs with hq
          · unfold Node.confAct at hca
            rw [Bool.and_eq_true, decide_eq_true_eq] at hca
            push Not at hca
            have := hca hq
            have heq : allEqual (n.cands.map Cand.aBits) = true := by
              cases hb : allEqual (n.cands.map Cand.aBits)
              · rw [hb] at this; simp at this
              · rfl
            rw [(allEqual_iff _).mp heq _ (List.mem_map_of_mem (List.getElem_mem l1)) _
              (List.mem_map_of_mem (List.getElem_mem l2))]
          · rfl
        · rw [if_neg hc, if_neg hc]

/-- The bits of a weight attribute depend on at most the layer itself. -/
theorem weightBits_local (net : Net) (i k : ℕ) :
    (∃ n, net.nodes[i]? = some n ∧ n.confWeight k = true ∧ i ∈ net.confNodes ∧
        ∀ c c' : ℕ → ℕ, c i = c' i → net.weightBits c i k = net.weightBits c' i k) ∨
    (∀ c c' : ℕ → ℕ, (net.space (K := K)).Valid c → (net.space (K := K)).Valid c' →
      net.weightBits c i k = net.weightBits c' i k) := by
  by_cases h : ∃ n, net.nodes[i]? = some n ∧ n.confWeight k = true ∧ n.conf = true
  · obtain ⟨n, hn, hw, hc⟩ := h
    exact Or.inl ⟨n, hn, hw, mem_confNodes.mpr ⟨n, hn, hc⟩,
      fun c c' e => weightBits_congr net fun _ => e⟩
  · refine Or.inr fun c c' hv hv' => ?_
    unfold Net.weightBits
    rcases hn : net.nodes[i]? with _ | n
    · rfl
    · simp only []
      rcases hk : n.attrs[k]? with _ | ⟨s, q⟩
      · rfl
      · simp only []
        by_cases hc : n.conf = true
        · have hi : i ∈ net.confNodes := mem_confNodes.mpr ⟨n, hn, hc⟩
          have l1 := hv i hi
          have l2 := hv' i hi
          simp only [Net.space, hn] at l1 l2
          rw [if_pos hc, if_pos hc, List.getElem?_eq_getElem l1, List.getElem?_eq_getElem l2]
          simp only []
          split_ifs with hq
          · have hcw : ¬ n.confWeight k = true := fun hw => h ⟨n, hn, hw, hc⟩
            unfold Node.confWeight at hcw
            rw [hk] at hcw
            simp only [hq, Bool.true_and] at hcw
            have heq : allEqual (n.cands.map fun c => c.w k) = true := by
              cases hb : allEqual (n.cands.map fun c => c.w k)
              · rw [hb] at hcw; simp at hcw
              · rfl
            have := (allEqual_iff _).mp heq _
              (List.mem_map_of_mem (f := fun c : Cand => c.w k) (List.getElem_mem l1)) _
              (List.mem_map_of_mem (f := fun c : Cand => c.w k) (List.getElem_mem l2))
            simpa using this
          · rfl
        · rw [if_neg hc, if_neg hc]

theorem bops_additive (net : Net) (hsep : BopsSeparate net) {m cfg : ℕ → ℕ}
    (hvm : (net.space (K := K)).Valid m) (hvc : (net.space (K := K)).Valid cfg)
    (hm : (net.bops (K := K) m).isSome)
    (hu : ∀ u ∈ net.confNodes, (net.bops (K := K) (setCfg m u (cfg u))).isSome) :
    (net.bops (K := K) cfg).isSome ∧
    AddAt net.confNodes m cfg (fun c => (net.bops (K := K) c).getD 0) := by
  apply sumM_additive_on (confNodes_nodup net) (List.range net.nodes.length)
    (net.space (K := K)).Valid hvm hvc ?_ (fun i c => net.nodeBops (K := K) c i) ?_ hm hu
  · intro u hu' l hl
    by_cases e : l = u
    · rw [e, setCfg_same]; exact hvc u hu'
    · rw [setCfg_ne m _ e]; exact hvm l hl
  · intro i _
    rcases hn : net.nodes[i]? with _ | n
    · exact Or.inr fun c c' _ _ => by unfold Net.nodeBops; rw [hn]
    rcases hk : n.kernel with _ | k
    · exact Or.inr fun c c' _ _ => by unfold Net.nodeBops; rw [hn]; simp only [hk]
    by_cases hz : n.macs = 0
    · exact Or.inr fun c c' _ _ => by unfold Net.nodeBops; rw [hn]; simp only [hk, if_pos hz]
    have hstep : ∀ a, n.prev = [a] → ∀ c c' : ℕ → ℕ, net.actBits c a = net.actBits c' a →
        net.weightBits c i k = net.weightBits c' i k →
        net.nodeBops (K := K) c i = net.nodeBops c' i := by
      intro a ha c c' e1 e2
      unfold Net.nodeBops; rw [hn]; simp only [hk, if_neg hz, ha, e1, e2]
    rcases hp : n.prev with _ | ⟨a, _ | ⟨b, ps⟩⟩
    · exact Or.inr fun c c' _ _ => by unfold Net.nodeBops; rw [hn]; simp only [hk, if_neg hz, hp]
    · rcases actBits_local (K := K) net a with ⟨j, s, hj, hs, hca, hjc, hloc⟩ | hconst
      · rcases weightBits_local (K := K) net i k with ⟨n', hn', hw, _, _⟩ | hwc
        · rw [hn] at hn'; injection hn' with e; subst e
          exact absurd ⟨hca, hw⟩ (hsep i n k a hn hk hp hz j s hj hs)
        · exact Or.inl ⟨j, hjc, fun c c' h1 h2 e => hstep a hp c c' (hloc c c' e) (hwc c c' h1 h2)⟩
      · rcases weightBits_local (K := K) net i k with ⟨_, _, _, hic, hwl⟩ | hwc
        · exact Or.inl ⟨i, hic, fun c c' h1 h2 e => hstep a hp c c' (hconst c c' h1 h2) (hwl c c' e)⟩
        · exact Or.inr fun c c' h1 h2 => hstep a hp c c' (hconst c c' h1 h2) (hwc c c' h1 h2)
    · exact Or.inr fun c c' _ _ => by unfold Net.nodeBops; rw [hn]; simp only [hk, if_neg hz, hp]

/-- Targets whose utilization is predicted exactly. -/
theorem space_additive (net : Net) (m : ℕ → ℕ) (hvm : (net.space (K := K)).Valid m) (t : Target)
    (ht : t = .bops → BopsSeparate net) : (net.space (K := K)).Additive m t := by
  by_cases hb : t = .bops
  · subst hb
    intro cfg hv hm hu
    have hm' : (net.bops (K := K) m).isSome := by
      simpa [Net.space, Net.utilVec] using hm
    have hu' : ∀ u ∈ net.confNodes, (net.bops (K := K) (setCfg m u (cfg u))).isSome := by
      intro u h
      simpa [Net.space, Net.utilVec] using hu u h (cfg u) (hv u h)
    obtain ⟨w1, w2⟩ := bops_additive net (ht rfl) hvm hv hm' hu'
    change (net.utilVec (K := K) cfg .bops).isSome ∧
      ((net.utilVec (K := K) cfg .bops).getD []).length = ((net.utilVec (K := K) m .bops).getD []).length ∧
      ∀ e, AddAt net.confNodes m cfg fun c => ((net.utilVec (K := K) c .bops).getD []).getD e 0
    simp only [Net.utilVec, Option.isSome_map]
    refine ⟨w1, ?_, ?_⟩
    · obtain ⟨a, ha⟩ := Option.isSome_iff_exists.mp w1
      obtain ⟨b, hb⟩ := Option.isSome_iff_exists.mp hm'
      rw [ha, hb]; rfl
    · intro e
      cases e with
      | zero =>
        unfold AddAt at w2 ⊢
        have : ∀ c, (((net.bops (K := K) c).map fun w => [w]).getD []).getD 0 0 =
            (net.bops (K := K) c).getD 0 := by
          intro c; rcases net.bops (K := K) c with _ | w <;> rfl
        simp only [this]; exact w2
      | succ e =>
        have : ∀ c, (((net.bops (K := K) c).map fun w => [w]).getD []).getD (e + 1) 0 = 0 := by
          intro c; rcases net.bops (K := K) c with _ | w <;> rfl
        exact AddAt.const _ _ _ _ (by simp only [this]) (fun _ _ => by simp only [this])
  · exact utilVec_additive net m t hb

/-! ### From vectors to a resource utilization -/

theorem foldl_max_le {x b : K} {xs : List K} : xs.foldl max x ≤ b ↔ x ≤ b ∧ ∀ y ∈ xs, y ≤ b := by
  induction xs generalizing x with
  | nil => simp
  | cons a xs ih =>
    rw [List.foldl_cons, ih, max_le_iff]
    simp only [List.mem_cons, forall_eq_or_imp]
    tauto

theorem foldl_max_mem (x : K) (xs : List K) : xs.foldl max x ∈ x :: xs := by
  induction xs generalizing x with
  | nil => simp
  | cons a xs ih =>
    rw [List.foldl_cons]
    have h := ih (max x a)
    rcases List.mem_cons.mp h with e | e
    · rw [e]
      rcases max_choice x a with m | m <;> rw [m] <;> simp
    · exact List.mem_cons_of_mem _ (List.mem_cons_of_mem _ e)

theorem listMax_spec {l : List K} {a : K} (h : listMax l = some a) :
    a ∈ l ∧ ∀ b, a ≤ b ↔ ∀ y ∈ l, y ≤ b := by
  cases l with
  | nil => simp [listMax] at h
  | cons x xs =>
    simp only [listMax, Option.some.injEq] at h
    rw [← h]
    refine ⟨foldl_max_mem x xs, fun b => ?_⟩
    rw [foldl_max_le]; simp

theorem mem_restricted {r : RU K} {t : Target} : t ∈ r.restricted ↔ r.get t < ⊤ := by
  unfold RU.restricted
  rw [List.mem_filter, decide_eq_true_eq]
  constructor
  · exact fun h => h.2
  · intro h; exact ⟨by cases t <;> simp [allTargets], h⟩

theorem restricted_num {r : RU K} {t : Target} (h : t ∈ r.restricted) : r.get t = (r.num t : K) := by
  have h := mem_restricted.mp h
  obtain ⟨x, hx⟩ := WithTop.ne_top_iff_exists.mp h.ne
  unfold RU.num; rw [← hx]; rfl

theorem satisfiedBy_iff (target ru : RU K) :
    target.satisfiedBy ru = true ↔ ∀ t, ru.get t ≤ target.get t := by
  unfold RU.satisfiedBy
  simp only [Bool.and_eq_true, decide_eq_true_eq]
  constructor
  · rintro ⟨⟨⟨h1, h2⟩, h3⟩, h4⟩ t
    cases t <;> assumption
  · intro h
    exact ⟨⟨⟨h .weights, h .activation⟩, h .total⟩, h .bops⟩

/-- The activation total when there are quantized activations. -/
theorem actTotal_eq (net : Net) (hact : net.actTargets [] ≠ []) (cfg : ℕ → ℕ) :
    net.actTotal (K := K) cfg = (net.actPerCut cfg).bind listMax := by
  unfold Net.actTotal; rw [if_neg hact]

/-- A computed resource utilization in terms of the utilization vectors. -/
theorem computeRU_meets (net : Net) (target : RU K) (cfg : ℕ → ℕ)
    (hact : (.activation ∈ target.restricted ∨ .total ∈ target.restricted) → net.actTargets [] ≠ []) :
    (net.space (K := K)).Meets target cfg ↔
      ∃ ru, net.computeRU target.restricted cfg = some ru ∧
        ∀ t ∈ target.restricted, ru.get t ≤ target.get t := by
  have hmeet : (net.space (K := K)).Meets target cfg ↔
      ∀ t ∈ target.restricted, ∃ v, net.utilVec cfg t = some v ∧ ∀ x ∈ v, x ≤ target.num t := Iff.rfl
  -- value of each requested field
  have hw : .weights ∈ target.restricted →
      ((∃ v, net.utilVec cfg .weights = some v ∧ ∀ x ∈ v, x ≤ target.num .weights) ↔
       ∃ w : K, net.weights cfg = some w ∧ w ≤ target.num .weights) := by
    intro _
    simp only [Net.utilVec, Option.map_eq_some_iff]
    constructor
    · rintro ⟨v, ⟨w, hw, rfl⟩, h⟩; exact ⟨w, hw, h w (by simp)⟩
    · rintro ⟨w, hw, h⟩; exact ⟨[w], ⟨w, hw, rfl⟩, by simpa using h⟩
  have hb : .bops ∈ target.restricted →
      ((∃ v, net.utilVec cfg .bops = some v ∧ ∀ x ∈ v, x ≤ target.num .bops) ↔
       ∃ w : K, net.bops cfg = some w ∧ w ≤ target.num .bops) := by
    intro _
    simp only [Net.utilVec, Option.map_eq_some_iff]
    constructor
    · rintro ⟨v, ⟨w, hw, rfl⟩, h⟩; exact ⟨w, hw, h w (by simp)⟩
    · rintro ⟨w, hw, h⟩; exact ⟨[w], ⟨w, hw, rfl⟩, by simpa using h⟩
  have ha : .activation ∈ target.restricted →
      ((∃ v, net.utilVec cfg .activation = some v ∧ ∀ x ∈ v, x ≤ target.num .activation) ↔
       ∃ w : K, net.actTotal cfg = some w ∧ w ≤ target.num .activation) := by
    intro hr
    have he := actTotal_eq (K := K) net (hact (Or.inl hr)) cfg
    simp only [Net.utilVec]
    constructor
    · rintro ⟨v, hv, h⟩
      obtain ⟨a, ha, hv⟩ := Option.bind_eq_some_iff.mp hv
      refine ⟨a, ha, ?_⟩
      rw [he, hv, Option.bind_some] at ha
      exact ((listMax_spec ha).2 _).mpr h
    · rintro ⟨a, ha, h⟩
      have ha' := ha
      rw [he] at ha'
      obtain ⟨v, hv, hm⟩ := Option.bind_eq_some_iff.mp ha'
      exact ⟨v, by rw [ha, Option.bind_some, hv], ((listMax_spec hm).2 _).mp h⟩
  have htt : .total ∈ target.restricted →
      ((∃ v, net.utilVec cfg .total = some v ∧ ∀ x ∈ v, x ≤ target.num .total) ↔
       ∃ w a : K, net.weights cfg = some w ∧ net.actTotal cfg = some a ∧ w + a ≤ target.num .total) := by
    intro hr
    have he := actTotal_eq (K := K) net (hact (Or.inr hr)) cfg
    simp only [Net.utilVec]
    constructor
    · rintro ⟨v, hv, h⟩
      obtain ⟨a, ha, hv⟩ := Option.bind_eq_some_iff.mp hv
      obtain ⟨w, hw, hv⟩ := Option.bind_eq_some_iff.mp hv
      obtain ⟨l, hl, rfl⟩ := Option.map_eq_some_iff.mp hv
      refine ⟨w, a, hw, ha, ?_⟩
      rw [he, hl, Option.bind_some] at ha
      have := h _ (List.mem_map_of_mem (f := fun a => a + w) (listMax_spec ha).1)
      linarith
    · rintro ⟨w, a, hw, ha, h⟩
      have ha' := ha
      rw [he] at ha'
      obtain ⟨l, hl, hm⟩ := Option.bind_eq_some_iff.mp ha'
      refine ⟨l.map fun a => a + w, by rw [ha, Option.bind_some, hw, Option.bind_some, hl]; rfl, ?_⟩
      intro x hx
      obtain ⟨y, hy, rfl⟩ := List.mem_map.mp hx
      have := ((listMax_spec hm).2 a).mp le_rfl y hy
      linarith
  rw [hmeet]
  unfold Net.computeRU
  constructor
  · intro h
    have f : ∀ (t : Target) (v : Option K), (t ∈ target.restricted → ∃ x, v = some x ∧ x ≤ target.num t) →
        ∃ y, ifReq target.restricted t v = some y ∧ (t ∈ target.restricted → y ≤ target.get t) := by
      intro t v hv
      unfold ifReq
      split_ifs with hr
      · obtain ⟨x, rfl, hx⟩ := hv hr
        exact ⟨(x : WithTop K), rfl, fun _ => by rw [restricted_num hr]; exact_mod_cast hx⟩
      · exact ⟨⊤, rfl, fun h => absurd h hr⟩
    obtain ⟨y1, e1, b1⟩ := f .weights (net.weights cfg) fun hr => (hw hr).mp (h _ hr)
    obtain ⟨y2, e2, b2⟩ := f .activation (net.actTotal cfg) fun hr => (ha hr).mp (h _ hr)
    obtain ⟨y3, e3, b3⟩ := f .total ((net.weights (K := K) cfg).bind fun w =>
        (net.actTotal cfg).map fun a => w + a) fun hr => by
      obtain ⟨w, a, h1, h2, h3⟩ := (htt hr).mp (h _ hr)
      exact ⟨w + a, by rw [h1, h2]; rfl, h3⟩
    obtain ⟨y4, e4, b4⟩ := f .bops (net.bops cfg) fun hr => (hb hr).mp (h _ hr)
    rw [e1, e2, e3, e4]
    refine ⟨⟨y1, y2, y3, y4⟩, rfl, fun t ht => ?_⟩
    cases t
    · exact b1 ht
    · exact b2 ht
    · exact b3 ht
    · exact b4 ht
  · rintro ⟨ru, hru, hle⟩
    have g : ∀ (t : Target) (v : Option K) (y : WithTop K), ifReq target.restricted t v = some y →
        t ∈ target.restricted → y ≤ target.get t → ∃ x, v = some x ∧ x ≤ target.num t := by
      intro t v y he hr hy
      unfold ifReq at he
      rw [if_pos hr] at he
      obtain ⟨x, hx, rfl⟩ := Option.map_eq_some_iff.mp he
      rw [restricted_num hr] at hy
      exact ⟨x, hx, by exact_mod_cast hy⟩
    rcases e1 : ifReq target.restricted .weights (net.weights (K := K) cfg) with _ | y1
    · rw [e1] at hru; exact absurd hru (by simp)
    rcases e2 : ifReq target.restricted .activation (net.actTotal (K := K) cfg) with _ | y2
    · rw [e1, e2] at hru; exact absurd hru (by simp)
    rcases e3 : ifReq target.restricted .total ((net.weights (K := K) cfg).bind fun w =>
        (net.actTotal cfg).map fun a => w + a) with _ | y3
    · rw [e1, e2, e3] at hru; exact absurd hru (by simp)
    rcases e4 : ifReq target.restricted .bops (net.bops (K := K) cfg) with _ | y4
    · rw [e1, e2, e3, e4] at hru; exact absurd hru (by simp)
    rw [e1, e2, e3, e4] at hru
    simp only [Option.some.injEq] at hru
    subst hru
    intro t ht
    cases t
    · exact (hw ht).mpr (g _ _ _ e1 ht (hle _ ht))
    · exact (ha ht).mpr (g _ _ _ e2 ht (hle _ ht))
    · obtain ⟨x, hx, hxle⟩ := g _ _ _ e3 ht (hle _ ht)
      obtain ⟨w, hw', hx⟩ := Option.bind_eq_some_iff.mp hx
      obtain ⟨a, ha', rfl⟩ := Option.map_eq_some_iff.mp hx
      exact (htt ht).mpr ⟨w, a, hw', ha', hxle⟩
    · exact (hb ht).mpr (g _ _ _ e4 ht (hle _ ht))

end MCT.MP
