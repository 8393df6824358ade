import Verif.MP.VirtualRecon

set_option linter.unusedSectionVars false
set_option linter.unusedVariables false
set_option linter.unusedSimpArgs false

/-! # Utilization over the virtual layers -/

namespace MCT.MP

open MCT.MPSpec

variable {K : Type*} [Field K] [LinearOrder K] [IsStrictOrderedRing K]

/-- Prediction of the utilization vectors from prediction of the weights, the cuts and the BOPS, when
configurations are read through `r`. -/
theorem utilVec_additive_via (net : Net) (U : List ℕ) (r : (ℕ → ℕ) → (ℕ → ℕ)) (m cfg : ℕ → ℕ)
    (hW : (net.weights (K := K) (r m)).isSome →
      (∀ u ∈ U, (net.weights (K := K) (r (setCfg m u (cfg u)))).isSome) →
      (net.weights (K := K) (r cfg)).isSome ∧ AddAt U m cfg fun c => (net.weights (K := K) (r c)).getD 0)
    (hC : ∀ cut, (net.cutUtil (K := K) (r m) cut).isSome →
      (∀ u ∈ U, (net.cutUtil (K := K) (r (setCfg m u (cfg u))) cut).isSome) →
      (net.cutUtil (K := K) (r cfg) cut).isSome ∧
        AddAt U m cfg fun c => (net.cutUtil (K := K) (r c) cut).getD 0)
    (t : Target)
    (hB : t = .bops → (net.bops (K := K) (r m)).isSome →
      (∀ u ∈ U, (net.bops (K := K) (r (setCfg m u (cfg u)))).isSome) →
      (net.bops (K := K) (r cfg)).isSome ∧ AddAt U m cfg fun c => (net.bops (K := K) (r c)).getD 0)
    (hm : (net.utilVec (K := K) (r m) t).isSome)
    (hu' : ∀ u ∈ U, (net.utilVec (K := K) (r (setCfg m u (cfg u))) t).isSome) :
    (net.utilVec (K := K) (r cfg) t).isSome ∧
    ((net.utilVec (K := K) (r cfg) t).getD []).length = ((net.utilVec (K := K) (r m) t).getD []).length ∧
    ∀ e, AddAt U m cfg fun c => ((net.utilVec (K := K) (r c) t).getD []).getD e 0 := by
  have hsingle : ∀ F : (ℕ → ℕ) → Option K, (F (r m)).isSome → (F (r cfg)).isSome →
      (AddAt U m cfg fun c => (F (r c)).getD 0) →
      (((F (r cfg)).map fun w => [w]).getD []).length = (((F (r m)).map fun w => [w]).getD []).length ∧
      ∀ e, AddAt U m cfg fun c => (((F (r c)).map fun w => [w]).getD []).getD e 0 := by
    intro F h1 h2 h3
    refine ⟨?_, fun e => ?_⟩
    · obtain ⟨a, ha⟩ := Option.isSome_iff_exists.mp h1
      obtain ⟨b, hb⟩ := Option.isSome_iff_exists.mp h2
      rw [ha, hb]; rfl
    · cases e with
      | zero =>
        have : ∀ c, (((F c).map fun w => [w]).getD []).getD 0 0 = (F c).getD 0 := by
          intro c; rcases F c with _ | w <;> rfl
        simp only [this]; exact h3
      | succ e =>
        have : ∀ c, (((F c).map fun w => [w]).getD []).getD (e + 1) 0 = 0 := by
          intro c; rcases F c with _ | w <;> rfl
        exact AddAt.const _ _ _ _ (by simp only [this]) (fun _ _ => by simp only [this])
  have hcutpart : (net.actTotal (K := K) (r m)).isSome → (net.actPerCut (K := K) (r m)).isSome →
      (∀ u ∈ U, (net.actPerCut (K := K) (r (setCfg m u (cfg u)))).isSome) →
      (net.actTotal (K := K) (r cfg)).isSome ∧ (net.actPerCut (K := K) (r cfg)).isSome ∧
      ∀ cut ∈ net.usedCuts, AddAt U m cfg
        fun c => (net.cutUtil (K := K) (r c) cut).getD 0 := by
    intro h1 h2 h3
    have hc : ∀ cut ∈ net.usedCuts, (net.cutUtil (K := K) (r cfg) cut).isSome ∧
        AddAt U m cfg fun c => (net.cutUtil (K := K) (r c) cut).getD 0 := by
      intro cut hcut
      exact hC cut ((actPerCut_isSome net (r m)).mp h2 cut hcut)
        (fun u hu => (actPerCut_isSome net _).mp (h3 u hu) cut hcut)
    have h4 : (net.actPerCut (K := K) (r cfg)).isSome :=
      (actPerCut_isSome net (r cfg)).mpr fun cut hcut => (hc cut hcut).1
    refine ⟨?_, h4, fun cut hcut => (hc cut hcut).2⟩
    rw [actTotal_isSome] at h1 ⊢
    rcases h1 with h1 | h1
    · exact Or.inl h1
    · exact Or.inr ⟨h4, h1.2⟩
  cases t with
  | bops =>
    simp only [Net.utilVec, Option.isSome_map] at hm hu' ⊢
    obtain ⟨w1, w2⟩ := hB rfl hm hu'
    exact ⟨w1, hsingle (fun c => net.bops c) hm w1 w2⟩
  | weights =>
    simp only [Net.utilVec, Option.isSome_map] at hm hu' ⊢
    obtain ⟨w1, w2⟩ := hW hm hu'
    exact ⟨w1, hsingle (fun c => net.weights c) hm w1 w2⟩
  | activation =>
    have hsplit : ∀ c, (net.utilVec (K := K) c .activation).isSome ↔
        (net.actTotal (K := K) c).isSome ∧ (net.actPerCut (K := K) c).isSome := by
      intro c; simp only [Net.utilVec]
      rcases net.actTotal (K := K) c with _ | a <;> simp
    have hval : ∀ c, (net.utilVec (K := K) c .activation).isSome →
        net.utilVec (K := K) c .activation =
          some (net.usedCuts.map fun cut => (net.cutUtil (K := K) c cut).getD 0) := by
      intro c hc
      have h' := (hsplit c).mp hc
      obtain ⟨a, ha⟩ := Option.isSome_iff_exists.mp h'.1
      simp only [Net.utilVec]
      rw [ha, Option.bind_some, actPerCut_eq net c h'.2]
    have hm' := (hsplit (r m)).mp hm
    obtain ⟨c1, c2, c3⟩ := hcutpart hm'.1 hm'.2 (fun u h => ((hsplit _).mp (hu' u h)).2)
    have hcfg := (hsplit (r cfg)).mpr ⟨c1, c2⟩
    refine ⟨hcfg, ?_, fun e => ?_⟩
    · rw [hval (r cfg) hcfg, hval (r m) hm]; simp
    · by_cases he : e < net.usedCuts.length
      · have hcut := c3 net.usedCuts[e] (List.getElem_mem he)
        have hel : ∀ c, (net.utilVec (K := K) c .activation).isSome →
            ((net.utilVec (K := K) c .activation).getD []).getD e 0 =
              (net.cutUtil (K := K) c net.usedCuts[e]).getD 0 := by
          intro c hc; rw [hval c hc, Option.getD_some, List.getD_eq_getElem _ _ (by simpa using he)]
          simp
        unfold AddAt at hcut ⊢
        simp only [] at hcut ⊢
        rw [hel (r cfg) hcfg, hel (r m) hm, hcut]
        congr 2
        apply List.map_congr_left
        intro u hu''
        rw [hel _ (hu' u hu'')]
      · have hel : ∀ c, (net.utilVec (K := K) c .activation).isSome →
            ((net.utilVec (K := K) c .activation).getD []).getD e 0 = 0 := by
          intro c hc; rw [hval c hc, Option.getD_some, List.getD_eq_default _ _ (by simpa using he)]
        exact AddAt.const _ _ _ _ (by rw [hel (r cfg) hcfg, hel (r m) hm])
          (fun u hu'' => by rw [hel _ (hu' u hu''), hel (r m) hm])
  | total =>
    have hsplit : ∀ c, (net.utilVec (K := K) c .total).isSome ↔
        (net.actTotal (K := K) c).isSome ∧ (net.weights (K := K) c).isSome ∧
          (net.actPerCut (K := K) c).isSome := by
      intro c; simp only [Net.utilVec]
      rcases net.actTotal (K := K) c with _ | a
      · simp
      · rcases net.weights (K := K) c with _ | a
        · simp
        · simp
    have hval : ∀ c, (net.utilVec (K := K) c .total).isSome →
        net.utilVec (K := K) c .total =
          some (net.usedCuts.map fun cut => (net.cutUtil (K := K) c cut).getD 0 +
            (net.weights (K := K) c).getD 0) := by
      intro c hc
      have h' := (hsplit c).mp hc
      obtain ⟨a, ha⟩ := Option.isSome_iff_exists.mp h'.1
      obtain ⟨w, hw⟩ := Option.isSome_iff_exists.mp h'.2.1
      simp only [Net.utilVec]
      rw [ha, Option.bind_some, hw, Option.bind_some, actPerCut_eq net c h'.2.2]
      simp
    have hm' := (hsplit (r m)).mp hm
    obtain ⟨c1, c2, c3⟩ := hcutpart hm'.1 hm'.2.2 (fun u h => ((hsplit _).mp (hu' u h)).2.2)
    obtain ⟨w1, w2⟩ := hW hm'.2.1 (fun u h => ((hsplit _).mp (hu' u h)).2.1)
    have hcfg := (hsplit (r cfg)).mpr ⟨c1, w1, c2⟩
    refine ⟨hcfg, ?_, fun e => ?_⟩
    · rw [hval (r cfg) hcfg, hval (r m) hm]; simp
    · by_cases he : e < net.usedCuts.length
      · have hcut := (c3 net.usedCuts[e] (List.getElem_mem he)).add w2
        have hel : ∀ c, (net.utilVec (K := K) c .total).isSome →
            ((net.utilVec (K := K) c .total).getD []).getD e 0 =
              (net.cutUtil (K := K) c net.usedCuts[e]).getD 0 + (net.weights (K := K) c).getD 0 := by
          intro c hc; rw [hval c hc, Option.getD_some, List.getD_eq_getElem _ _ (by simpa using he)]
          simp
        unfold AddAt at hcut ⊢
        simp only [] at hcut ⊢
        rw [hel (r cfg) hcfg, hel (r m) hm, hcut]
        congr 2
        apply List.map_congr_left
        intro u hu''
        rw [hel _ (hu' u hu'')]
      · have hel : ∀ c, (net.utilVec (K := K) c .total).isSome →
            ((net.utilVec (K := K) c .total).getD []).getD e 0 = 0 := by
          intro c hc; rw [hval c hc, Option.getD_some, List.getD_eq_default _ _ (by simpa using he)]
        exact AddAt.const _ _ _ _ (by rw [hel (r cfg) hcfg, hel (r m) hm])
          (fun u hu'' => by rw [hel _ (hu' u hu''), hel (r m) hm])

/-! ### Which virtual layer the bits depend on -/

theorem validCfg_space {net : Net} {cfg : ℕ → ℕ} (h : ValidCfg net cfg) :
    (net.space (K := ℚ)).Valid cfg := by
  intro i hi
  obtain ⟨n, hn, hc⟩ := mem_confNodes.mp hi
  simpa [Net.space, hn] using h i n hn hc

theorem recon_at {net : Net} (ok : BopsNet net) (hc : net.vcheck = true) {vcfg : ℕ → ℕ}
    (hv : VValid net vcfg) {i : ℕ} {n : Node} (hn : net.nodes[i]? = some n) (hcf : n.conf = true) :
    ∃ c, n.cands[net.recon vcfg i]? = some c ∧
      (n.confAct = true → ∃ v vc, HoldsAct v i ∧ Selected net vcfg v vc ∧ c.aBits = vc.aBits) ∧
      (∀ k, n.confWeight k = true → ∃ v vc, HoldsWts v i ∧ Selected net vcfg v vc ∧ c.w k = vc.w k) := by
  obtain ⟨x, c, h1, h2, h3, h4⟩ := (reconAt_spec ok hc hv hn).2 hcf
  refine ⟨c, ?_, h3, h4⟩
  unfold Net.recon; rw [h1]; exact h2

theorem recon_valid {net : Net} (ok : BopsNet net) (hc : net.vcheck = true) {vcfg : ℕ → ℕ}
    (hv : VValid net vcfg) : ValidCfg net (net.recon vcfg) := by
  intro i n hn hcf
  obtain ⟨c, h, _⟩ := recon_at ok hc hv hn hcf
  exact (List.getElem?_eq_some_iff.mp h).1

theorem selected_congr {net : Net} {c c' : ℕ → ℕ} {v : VNode} {vc vc' : Cand} {l : ℕ}
    (hl : net.vnodes[l]? = some v) (e : c l = c' l) (h : Selected net c v vc) (h' : Selected net c' v vc') :
    vc = vc' := by
  obtain ⟨l1, vn, h1, h2, _, h3⟩ := h
  obtain ⟨l2, vn', h1', h2', _, h3'⟩ := h'
  rw [vnodes_inj h1 hl] at h3
  rw [vnodes_inj h1' hl] at h3'
  rw [h2] at h2'; injection h2' with hvn; subst hvn
  rw [← e, h3] at h3'; injection h3'

theorem selected_layer {net : Net} {c : ℕ → ℕ} {v : VNode} {vc : Cand} (h : Selected net c v vc) :
    ∃ l ∈ net.vlayers, net.vnodes[l]? = some v := by
  obtain ⟨l, vn, h1, h2, h3, _⟩ := h
  exact ⟨l, mem_vlayers.mpr ⟨v, vn, h1, h2, h3⟩, h1⟩

theorem selected_mem {net : Net} {c : ℕ → ℕ} {v : VNode} {vc : Cand} (h : Selected net c v vc) :
    v ∈ net.vnodes := by
  obtain ⟨l, vn, h1, _⟩ := h
  exact List.mem_of_getElem? h1

/-- The activation bits of a node depend on the layer that holds the activation it takes its
quantization from, or on nothing. -/
theorem act_dep {net : Net} (ok : BopsNet net) (hc : net.vcheck = true) {m : ℕ → ℕ} (hm : VValid net m) (i : ℕ) :
    (∃ j n v l, net.preserved (net.nodes.length + 1) i = some j ∧ net.nodes[j]? = some n ∧
        n.confAct = true ∧ net.vnodes[l]? = some v ∧ l ∈ net.vlayers ∧ HoldsAct v j ∧
        ∀ c c' : ℕ → ℕ, VValid net c → VValid net c' → c l = c' l →
          net.actBits (net.recon c) i = net.actBits (net.recon c') i) ∨
    (∀ c c' : ℕ → ℕ, VValid net c → VValid net c' →
      net.actBits (net.recon c) i = net.actBits (net.recon c') i) := by
  rcases actBits_local (K := ℚ) net i with ⟨j, n, hp, hn, ha, _, _⟩ | h
  · have hcf : n.conf = true := by unfold Node.conf; rw [ha]; rfl
    obtain ⟨_, _, h3, _⟩ := recon_at ok hc hm hn hcf
    obtain ⟨v, _, hh, hsel, _⟩ := h3 ha
    obtain ⟨l, hl, hlv⟩ := selected_layer hsel
    refine Or.inl ⟨j, n, v, l, hp, hn, ha, hlv, hl, hh, fun c c' hvc hvc' e => ?_⟩
    obtain ⟨q, hq, hqa, _⟩ := recon_at ok hc hvc hn hcf
    obtain ⟨q', hq', hqa', _⟩ := recon_at ok hc hvc' hn hcf
    obtain ⟨w, wc, hw, hws, hwe⟩ := hqa ha
    obtain ⟨w', wc', hw', hws', hwe'⟩ := hqa' ha
    have e1 : w = v := holdsAct_unique (selected_mem hws) (selected_mem hsel) hw hh
    have e2 : w' = v := holdsAct_unique (selected_mem hws') (selected_mem hsel) hw' hh
    rw [e1] at hws; rw [e2] at hws'
    have := selected_congr hlv e hws hws'
    unfold Net.actBits
    rw [hp]
    simp only [hn, hcf, if_true, hq, hq', hwe, hwe', this]
  · exact Or.inr fun c c' hvc hvc' => h _ _ (validCfg_space (recon_valid ok hc hvc))
      (validCfg_space (recon_valid ok hc hvc'))

/-- The bits of a weight of a node depend on the layer that holds its weights, or on nothing. -/
theorem wts_dep {net : Net} (ok : BopsNet net) (hc : net.vcheck = true) {m : ℕ → ℕ} (hm : VValid net m) (i k : ℕ) :
    (∃ n v l, net.nodes[i]? = some n ∧ n.confWeight k = true ∧ net.vnodes[l]? = some v ∧ l ∈ net.vlayers ∧
        HoldsWts v i ∧
        ∀ c c' : ℕ → ℕ, VValid net c → VValid net c' → c l = c' l →
          net.weightBits (net.recon c) i k = net.weightBits (net.recon c') i k) ∨
    (∀ c c' : ℕ → ℕ, VValid net c → VValid net c' →
      net.weightBits (net.recon c) i k = net.weightBits (net.recon c') i k) := by
  rcases weightBits_local (K := ℚ) net i k with ⟨n, hn, hw, hic, _⟩ | h
  · obtain ⟨n', hn', hcf⟩ := mem_confNodes.mp hic
    rw [hn] at hn'; injection hn' with hnn; subst hnn
    obtain ⟨_, _, _, h4⟩ := recon_at ok hc hm hn hcf
    obtain ⟨v, _, hh, hsel, _⟩ := h4 k hw
    obtain ⟨l, hl, hlv⟩ := selected_layer hsel
    refine Or.inl ⟨n, v, l, hn, hw, hlv, hl, hh, fun c c' hvc hvc' e => ?_⟩
    obtain ⟨q, hq, _, hqa⟩ := recon_at ok hc hvc hn hcf
    obtain ⟨q', hq', _, hqa'⟩ := recon_at ok hc hvc' hn hcf
    obtain ⟨w, wc, hw1, hws, hwe⟩ := hqa k hw
    obtain ⟨w', wc', hw', hws', hwe'⟩ := hqa' k hw
    have e1 : w = v := holdsWts_unique (selected_mem hws) (selected_mem hsel) hw1 hh
    have e2 : w' = v := holdsWts_unique (selected_mem hws') (selected_mem hsel) hw' hh
    rw [e1] at hws; rw [e2] at hws'
    have := selected_congr hlv e hws hws'
    unfold Net.weightBits
    rw [hn]
    simp only []
    rcases n.attrs[k]? with _ | ⟨s, b⟩
    · rfl
    · simp only [hcf, if_true, hq, hq', hwe, hwe', this]
  · exact Or.inr fun c c' hvc hvc' => h _ _ (validCfg_space (recon_valid ok hc hvc))
      (validCfg_space (recon_valid ok hc hvc'))

theorem setCfg_vvalid {net : Net} {m cfg : ℕ → ℕ} (hm : VValid net m) (hcfg : VValid net cfg) (u : ℕ) :
    VValid net (setCfg m u (cfg u)) := by
  intro l v vn h1 h2 h3
  by_cases e : l = u
  · rw [e, setCfg_same, ← e]; exact hcfg l v vn h1 h2 h3
  · rw [setCfg_ne m _ e]; exact hm l v vn h1 h2 h3

theorem count_ne_zero_of {l : List Node} {j : ℕ} (h : (l.flatMap Node.prev).count j ≠ 0) :
    ∃ (i : ℕ) (n : Node), l[i]? = some n ∧ j ∈ n.prev := by
  have := List.count_pos_iff.mp (Nat.pos_of_ne_zero h)
  obtain ⟨n, hn, hj⟩ := List.mem_flatMap.mp this
  obtain ⟨i, hi⟩ := List.mem_iff_getElem?.mp hn
  exact ⟨i, n, hi, hj⟩

/-- A node read by one node only, once, has at most one outgoing edge. -/
theorem outDeg_le {l : List Node} {a i : ℕ} {n : Node} (hn : l[i]? = some n) (hp : n.prev = [a])
    (h : ∀ (i' : ℕ) (n' : Node), l[i']? = some n' → a ∈ n'.prev → i' = i) :
    (l.flatMap Node.prev).count a ≤ 1 := by
  induction l generalizing i with
  | nil => simp at hn
  | cons b l ih =>
    rw [List.flatMap_cons, List.count_append]
    cases i with
    | zero =>
      simp only [List.getElem?_cons_zero, Option.some.injEq] at hn
      rw [hn, hp]
      have : (l.flatMap Node.prev).count a = 0 := by
        by_contra hne
        obtain ⟨i', n', h1, h2⟩ := count_ne_zero_of hne
        have := h (i' + 1) n' (by simpa using h1) h2
        omega
      rw [this]; simp
    | succ i =>
      have hb : b.prev.count a = 0 := by
        rw [List.count_eq_zero]
        intro hm
        have := h 0 b (by simp) hm
        omega
      have := ih (i := i) (by simpa using hn) fun i' n' h1 h2 => by
        have := h (i' + 1) n' (by simpa using h1) h2; omega
      omega

/-- Utilization is predicted by the virtual layers, one at a time. -/
theorem vspace_additive (net : Net) (ok : BopsNet net) (hc : net.vcheck = true) (m : ℕ → ℕ)
    (hm : VValid net m) (t : Target) (ht : t = .bops → BopsPaired net) :
    (net.vspace (K := K)).Additive m t := by
  intro cfg hv hdm hdu
  have hcfg : VValid net cfg := by
    intro l v vn h1 h2 h3
    have := hv l (mem_vlayers.mpr ⟨v, vn, h1, h2, h3⟩)
    simpa [Net.vspace, h1, h2] using this
  have hset := setCfg_vvalid hm hcfg
  have hutil : ∀ c, VValid net c → (net.vspace (K := K)).util c t = net.utilVec (net.recon c) t := by
    intro c hvc
    simp only [Net.vspace, reconstruct_some ok hc hvc, Option.bind_some]
  have key := utilVec_additive_via (K := K) net net.vlayers net.recon m cfg
    (fun h1 h2 => by
      apply sumM_additive_on (vlayers_nodup net) (List.range net.nodes.length) (VValid net) hm hcfg
        (fun u _ => hset u) (fun i c => net.nodeWeights (K := K) (net.recon c) i) _ h1 h2
      intro i _
      have hst : ∀ c c', (∀ k, net.weightBits (net.recon c) i k = net.weightBits (net.recon c') i k) →
          net.nodeWeights (K := K) (net.recon c) i = net.nodeWeights (net.recon c') i := by
        intro c c' h
        unfold Net.nodeWeights
        rcases net.nodes[i]? with _ | n
        · rfl
        · simp only [h]
      by_cases hex : ∃ k, ∃ n v l, net.nodes[i]? = some n ∧ n.confWeight k = true ∧ net.vnodes[l]? = some v ∧
          l ∈ net.vlayers ∧ HoldsWts v i
      · obtain ⟨k, n, v, l, hn, hk, hl, hlv, hh⟩ := hex
        refine Or.inl ⟨l, hlv, fun c c' hc1 hc2 e => hst c c' fun k' => ?_⟩
        rcases wts_dep ok hc hm i k' with ⟨n', v', l', _, _, hl', _, hh', hdep⟩ | hcst
        · have : v' = v := holdsWts_unique (List.mem_of_getElem? hl') (List.mem_of_getElem? hl) hh' hh
          rw [this] at hl'
          rw [vnodes_inj hl' hl] at hdep
          exact hdep c c' hc1 hc2 e
        · exact hcst c c' hc1 hc2
      · refine Or.inr fun c c' hc1 hc2 => hst c c' fun k' => ?_
        rcases wts_dep ok hc hm i k' with ⟨n', v', l', h1, h2, h3, h4, h5, _⟩ | hcst
        · exact absurd ⟨k', n', v', l', h1, h2, h3, h4, h5⟩ hex
        · exact hcst c c' hc1 hc2)
    (fun cut h1 h2 => by
      apply sumM_additive_on (vlayers_nodup net) (net.actTargets cut).dedup (VValid net) hm hcfg
        (fun u _ => hset u) (fun i c => net.nodeAct (K := K) (net.recon c) i) _ h1 h2
      intro i _
      have hst : ∀ c c', net.actBits (net.recon c) i = net.actBits (net.recon c') i →
          net.nodeAct (K := K) (net.recon c) i = net.nodeAct (net.recon c') i := by
        intro c c' h
        unfold Net.nodeAct
        rw [h]
      rcases act_dep ok hc hm i with ⟨_, _, _, l, _, _, _, _, hlv, _, hdep⟩ | hcst
      · exact Or.inl ⟨l, hlv, fun c c' h1 h2 e => hst c c' (hdep c c' h1 h2 e)⟩
      · exact Or.inr fun c c' h1 h2 => hst c c' (hcst c c' h1 h2))
    t
    (fun hb h1 h2 => by
      have hpair := ht hb
      apply sumM_additive_on (vlayers_nodup net) (List.range net.nodes.length) (VValid net) hm hcfg
        (fun u _ => hset u) (fun i c => net.nodeBops (K := K) (net.recon c) i) _ h1 h2
      intro i _
      rcases hn : net.nodes[i]? with _ | n
      · exact Or.inr fun c c' _ _ => by unfold Net.nodeBops; rw [hn]
      rcases hk : n.kernel with _ | k
      · exact Or.inr fun c c' _ _ => by unfold Net.nodeBops; rw [hn]; simp only [hk]
      by_cases hz : n.macs = 0
      · exact Or.inr fun c c' _ _ => by unfold Net.nodeBops; rw [hn]; simp only [hk, if_pos hz]
      obtain ⟨a, na, hp, hna⟩ := (vcheck_spec hc hn).2 k hk
      have hst : ∀ c c', net.actBits (net.recon c) a = net.actBits (net.recon c') a →
          net.weightBits (net.recon c) i k = net.weightBits (net.recon c') i k →
          net.nodeBops (K := K) (net.recon c) i = net.nodeBops (net.recon c') i := by
        intro c c' e1 e2
        unfold Net.nodeBops; rw [hn]; simp only [hk, if_neg hz, hp, e1, e2]
      rcases act_dep ok hc hm a with ⟨j, s, v, l, hj, hs, hsa, hl, hlv, hh, hdep⟩ | hcst
      · rcases wts_dep ok hc hm i k with ⟨n', v', l', hn', hw, hl', _, hh', hdep'⟩ | hcst'
        · rw [hn] at hn'; injection hn' with e; subst e
          obtain ⟨hja, huniq⟩ := hpair i n k a hn hk hp hz j s hj hs hsa hw
          subst hja
          have hsingle : net.single j = true := by
            unfold Net.single Net.outDeg
            rw [decide_eq_true_eq]
            exact outDeg_le hn hp huniq
          have hmem : VNode.pair j i ∈ net.vnodes := mem_vnodes.mpr (mem_vpart.mpr
            ⟨n, hn, Or.inr (Or.inr (Or.inl ⟨j, rfl, by rw [hk]; rfl, hp, hsingle⟩))⟩)
          have e1 : v = .pair j i :=
            holdsAct_unique (List.mem_of_getElem? hl) hmem hh (Or.inr (Or.inr ⟨i, rfl⟩))
          have e2 : v' = .pair j i :=
            holdsWts_unique (List.mem_of_getElem? hl') hmem hh' (Or.inr ⟨j, rfl⟩)
          rw [e2, ← e1] at hl'
          rw [vnodes_inj hl' hl] at hdep'
          exact Or.inl ⟨l, hlv, fun c c' h1 h2 e => hst c c' (hdep c c' h1 h2 e) (hdep' c c' h1 h2 e)⟩
        · exact Or.inl ⟨l, hlv, fun c c' h1 h2 e => hst c c' (hdep c c' h1 h2 e) (hcst' c c' h1 h2)⟩
      · rcases wts_dep ok hc hm i k with ⟨n', v', l', _, _, _, hlv', _, hdep'⟩ | hcst'
        · exact Or.inl ⟨l', hlv', fun c c' h1 h2 e => hst c c' (hcst c c' h1 h2) (hdep' c c' h1 h2 e)⟩
        · exact Or.inr fun c c' h1 h2 => hst c c' (hcst c c' h1 h2) (hcst' c c' h1 h2))
    (by rw [← hutil m hm]; exact hdm)
    (fun u hu => by
      rw [← hutil _ (hset u)]
      exact hdu u hu (cfg u) (hv u hu))
  obtain ⟨k1, k2, k3⟩ := key
  refine ⟨by rw [hutil cfg hcfg]; exact k1, by rw [hutil cfg hcfg, hutil m hm]; exact k2, fun e => ?_⟩
  have k3 := k3 e
  unfold AddAt at k3 ⊢
  simp only [] at k3 ⊢
  rw [hutil cfg hcfg, hutil m hm, k3]
  congr 2
  apply List.map_congr_left
  intro u _
  rw [hutil _ (hset u)]

end MCT.MP
