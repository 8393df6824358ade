import Verif.MP.VirtualAdd
import Verif.MP.Props
import Mathlib.Tactic.IntervalCases

set_option linter.unusedSectionVars false
set_option linter.unusedVariables false

/-!
# Property theorems C101 (virtual graph), and C18–C21 for the search that uses it
-/

namespace MCT.MP

open MCT.MPSpec

variable {K : Type*} [Field K] [LinearOrder K] [IsStrictOrderedRing K]

/-- Example: an input with two bit-widths feeds a convolution whose kernel and activation have two
bit-widths each; a second convolution reads its output. -/
def exChain : Net where
  nodes := [
    { reuse := false, attrs := [], kernel := none, cands := [⟨8, []⟩, ⟨4, []⟩], mode := .quant,
      actSize := 16, inner := false, macs := 0, prev := [] },
    { reuse := false, attrs := [(8, true)], kernel := some 0,
      cands := [⟨8, [8]⟩, ⟨8, [4]⟩, ⟨4, [8]⟩, ⟨4, [4]⟩], mode := .quant, actSize := 4, inner := false,
      macs := 32, prev := [0] },
    { reuse := false, attrs := [(8, true)], kernel := some 0,
      cands := [⟨8, [8]⟩, ⟨8, [4]⟩], mode := .quant, actSize := 4, inner := false,
      macs := 10, prev := [1] }]
  cuts := [[0], [0, 1], [1, 2]]

theorem exChain_ok : BopsNet exChain := by
  refine ⟨?_, ?_, ?_⟩
  · intro i n hn
    match i with
    | 0 => simp only [exChain, List.getElem?_cons_zero, Option.some.injEq] at hn; subst hn; decide
    | 1 => simp [exChain] at hn; subst hn; decide
    | 2 => simp [exChain] at hn; subst hn; decide
    | i + 3 => simp [exChain] at hn
  · intro i n k hn hk
    match i with
    | 0 =>
      simp only [exChain, List.getElem?_cons_zero, Option.some.injEq] at hn; subst hn
      exact absurd (confWeight_lt hk) (by simp)
    | 1 =>
      simp [exChain] at hn; subst hn
      have := confWeight_lt hk
      simp only [List.length_singleton] at this
      exact ⟨by rw [show k = 0 by omega], rfl⟩
    | 2 =>
      simp [exChain] at hn; subst hn
      have := confWeight_lt hk
      simp only [List.length_singleton] at this
      exact ⟨by rw [show k = 0 by omega], rfl⟩
    | i + 3 => simp [exChain] at hn
  · intro i n hn x y c d hc hd h1 h2
    have hlx := (List.getElem?_eq_some_iff.mp hc).1
    have hly := (List.getElem?_eq_some_iff.mp hd).1
    match i with
    | 0 =>
      simp only [exChain, List.getElem?_cons_zero, Option.some.injEq] at hn; subst hn
      have := h1 (by decide)
      simp only [List.length_cons, List.length_nil] at hlx hly
      interval_cases x <;> interval_cases y <;> simp_all <;> subst hc <;> subst hd <;> simp at *
    | 1 =>
      simp [exChain] at hn; subst hn
      have e1 := h1 (by decide)
      have e2 := h2 0 (by decide)
      simp only [List.length_cons, List.length_nil] at hlx hly
      interval_cases x <;> interval_cases y <;> simp_all <;> subst hc <;> subst hd <;> simp [Cand.w] at *
    | 2 =>
      simp [exChain] at hn; subst hn
      have e2 := h2 0 (by decide)
      simp only [List.length_cons, List.length_nil] at hlx hly
      interval_cases x <;> interval_cases y <;> simp_all <;> subst hc <;> subst hd <;> simp [Cand.w] at *
    | i + 3 => simp [exChain] at hn

theorem exChain_paired : BopsPaired exChain := by
  intro i n k a hn hk hp hz j s hj hs hsa hw
  match i with
  | 0 => simp only [exChain, List.getElem?_cons_zero, Option.some.injEq] at hn; subst hn; simp at hk
  | 1 =>
    simp [exChain] at hn; subst hn
    simp only [List.cons.injEq, and_true] at hp
    subst hp
    have hj' : some 0 = some j := by rw [← hj]; decide
    injection hj' with e
    refine ⟨e.symm, fun i' n' hn' hm => ?_⟩
    match i' with
    | 0 => simp only [exChain, List.getElem?_cons_zero, Option.some.injEq] at hn'; subst hn'; simp at hm
    | 1 => rfl
    | 2 => simp [exChain] at hn'; subst hn'; simp at hm
    | i' + 3 => simp [exChain] at hn'
  | 2 =>
    simp [exChain] at hn; subst hn
    simp only [List.cons.injEq, and_true] at hp
    subst hp
    have hj' : some 1 = some j := by rw [← hj]; decide
    injection hj' with e
    refine ⟨e.symm, fun i' n' hn' hm => ?_⟩
    match i' with
    | 0 => simp only [exChain, List.getElem?_cons_zero, Option.some.injEq] at hn'; subst hn'; simp at hm
    | 1 => simp [exChain] at hn'; subst hn'; simp at hm
    | 2 => rfl
    | i' + 3 => simp [exChain] at hn'
  | i + 3 => simp [exChain] at hn

/-! ## C101: reconstruction of the configuration -/

/-- C101. A candidate for every layer of the virtual graph gives a configuration of the model: at every
configurable node, the candidate whose activation bits were selected by the virtual layer that holds its
activation and whose kernel bits were selected by the virtual layer that holds its weights. -/
theorem C101_reconstruct_partial (net : Net) (ok : BopsNet net) (hc : net.vcheck = true) (vcfg : ℕ → ℕ)
    (hv : VValid net vcfg) :
    ∃ cfg, net.reconstruct vcfg = some cfg ∧ ValidCfg net cfg ∧
      ∀ (i : ℕ) (n : Node), net.nodes[i]? = some n → n.conf = true →
        ∃ c, n.cands[cfg i]? = some c ∧
          (n.confAct = true → ∃ v vc, HoldsAct v i ∧ Selected net vcfg v vc ∧ c.aBits = vc.aBits) ∧
          (∀ k, n.confWeight k = true → ∃ v vc, HoldsWts v i ∧ Selected net vcfg v vc ∧ c.w k = vc.w k) :=
  ⟨_, reconstruct_some ok hc hv, recon_valid ok hc hv, fun i n hn hcf => recon_at ok hc hv hn hcf⟩

/-- C101. The virtual layers lose nothing: every configuration of the model is the reconstruction of
some choice at the virtual layers. -/
theorem C101_complete_partial (net : Net) (ok : BopsNet net) (hc : net.vcheck = true) (cfg : ℕ → ℕ)
    (hv : ValidCfg net cfg) :
    ∃ vcfg cfg', VValid net vcfg ∧ net.reconstruct vcfg = some cfg' ∧
      ∀ (i : ℕ) (n : Node), net.nodes[i]? = some n → n.conf = true → cfg' i = cfg i := by
  -- the candidate of a node: the configured one, or any
  have hsel : ∀ (i : ℕ) (n : Node), net.nodes[i]? = some n → ∃ c ∈ n.cands, n.conf = true → n.cands[cfg i]? = some c := by
    intro i n hn
    by_cases hcf : n.conf = true
    · have := List.getElem?_eq_getElem (hv i n hn hcf)
      exact ⟨_, List.mem_of_getElem? this, fun _ => this⟩
    · obtain ⟨c, hc⟩ := List.exists_mem_of_ne_nil _ (ok.cands i n hn)
      exact ⟨c, hc, fun h => absurd h hcf⟩
  have key : ∀ l : ℕ, ∃ x : ℕ, ∀ (v : VNode) (vn : Node), net.vnodes[l]? = some v → net.vnode v = some vn →
      ∃ vc : Cand, vn.cands[x]? = some vc ∧
      (∀ (j : ℕ) (n : Node) (c : Cand), HoldsAct v j → net.nodes[j]? = some n → n.confAct = true → n.cands[cfg j]? = some c →
        vc.aBits = c.aBits) ∧
      (∀ (i : ℕ) (n : Node) (c : Cand) (k : ℕ), HoldsWts v i → net.nodes[i]? = some n → n.confWeight k = true → n.cands[cfg i]? = some c →
        vc.w k = c.w k) := by
    intro l
    rcases hl : net.vnodes[l]? with _ | v
    · exact ⟨0, fun v vn h => by simp at h⟩
    have hvm := List.mem_of_getElem? hl
    obtain ⟨n, hn, hvp⟩ := mem_vpart.mp (mem_vnodes.mp hvm)
    generalize v.main = i0 at hn hvp
    obtain ⟨c, hcm, hcc⟩ := hsel i0 n hn
    have hconfA : n.confAct = true → n.conf = true := fun h => (conf_iff ok hn).mpr (Or.inl h)
    have hconfW : ∀ {i : ℕ} {m : Node} {k : ℕ}, net.nodes[i]? = some m → m.confWeight k = true → m.conf = true := fun hm h =>
      (conf_iff ok hm).mpr (Or.inr ((anyConfWeight_iff _).mpr ⟨_, h⟩))
    rcases hvp with ⟨e, hk, _⟩ | ⟨e, hk, _⟩ | ⟨a, e, hk, hp, _⟩ | ⟨e, hk, _⟩
    · -- regular
      obtain ⟨x, hx⟩ := List.mem_iff_getElem?.mp hcm
      refine ⟨if n.conf then cfg i0 else x, fun v' vn h1 h2 => ?_⟩
      injection h1 with h1; rw [← h1, e] at h2
      simp only [Net.vnode] at h2
      rw [hn] at h2; injection h2 with h2
      refine ⟨c, ?_, ?_, ?_⟩
      · rw [← h2]
        split_ifs with hcf
        · exact hcc hcf
        · exact hx
      · intro j m d hj hm hma hd
        rw [← h1, e] at hj
        have : j = i0 := by
          rcases hj with hj | hj | ⟨_, hj⟩ <;> simp_all
        rw [this] at hm hd
        rw [hn] at hm; injection hm with hm; subst hm
        rw [hcc (hconfA hma)] at hd; injection hd with hd; rw [hd]
      · intro i m d k hi
        rw [← h1, e] at hi
        rcases hi with hi | ⟨_, hi⟩ <;> simp at hi
    · -- activation part
      obtain ⟨d, hd, hda⟩ := (mem_uniqueA_bits n.cands c.aBits).mpr ⟨c, hcm, rfl⟩
      obtain ⟨x, hx⟩ := List.mem_iff_getElem?.mp hd
      refine ⟨x, fun v' vn h1 h2 => ?_⟩
      injection h1 with h1; rw [← h1, e] at h2
      simp only [Net.vnode] at h2
      rw [hn] at h2; injection h2 with h2
      refine ⟨d, ?_, ?_, ?_⟩
      · rw [← h2]; exact hx
      · intro j m q hj hm hma hq
        rw [← h1, e] at hj
        have : j = i0 := by
          rcases hj with hj | hj | ⟨_, hj⟩ <;> simp_all
        rw [this] at hm hq
        rw [hn] at hm; injection hm with hm; subst hm
        rw [hcc (hconfA hma)] at hq; injection hq with hq; rw [hda, hq]
      · intro i m d k hi
        rw [← h1, e] at hi
        rcases hi with hi | ⟨_, hi⟩ <;> simp at hi
    · -- pair
      obtain ⟨k, hk⟩ := Option.isSome_iff_exists.mp hk
      obtain ⟨_, na, hp', hna⟩ := (vcheck_spec hc hn).2 k hk
      rw [hp] at hp'; injection hp' with hp' _; subst hp'
      obtain ⟨ca, hcam, hcac⟩ := hsel a na hna
      obtain ⟨d, hd, hd1, hd2⟩ := pair_cover (k := k) hcam hcm
      obtain ⟨x, hx⟩ := List.mem_iff_getElem?.mp hd
      refine ⟨x, fun v' vn h1 h2 => ?_⟩
      injection h1 with h1; rw [← h1, e] at h2
      simp only [Net.vnode] at h2
      rw [hna, Option.bind_some, hn, Option.bind_some, hk, Option.map_some] at h2
      injection h2 with h2
      refine ⟨d, ?_, ?_, ?_⟩
      · rw [← h2]; exact hx
      · intro j m q hj hm hma hq
        rw [← h1, e] at hj
        have : j = a := by
          rcases hj with hj | hj | ⟨_, hj⟩ <;> simp_all
        rw [this] at hm hq
        rw [hna] at hm; injection hm with hm; subst hm
        rw [hcac ((conf_iff ok hna).mpr (Or.inl hma))] at hq; injection hq with hq; rw [hd1, hq]
      · intro i m q k' hi hm hmk hq
        rw [← h1, e] at hi
        have : i = i0 := by
          rcases hi with hi | ⟨_, hi⟩ <;> simp_all
        rw [this] at hm hq
        rw [hn] at hm; injection hm with hm; subst hm
        have hkk := (ok.kernel _ _ _ hn hmk).1
        rw [hk] at hkk; injection hkk with hkk
        rw [hcc (hconfW hn hmk)] at hq; injection hq with hq; rw [← hkk, hd2, hq]
    · -- weights part
      obtain ⟨k, hk⟩ := Option.isSome_iff_exists.mp hk
      obtain ⟨d, hd, hda⟩ := (wtsPart_bits n k (c.w k)).mpr ⟨c, hcm, rfl⟩
      obtain ⟨x, hx⟩ := List.mem_iff_getElem?.mp hd
      refine ⟨x, fun v' vn h1 h2 => ?_⟩
      injection h1 with h1; rw [← h1, e] at h2
      simp only [Net.vnode] at h2
      rw [hn, Option.bind_some, hk, Option.map_some] at h2; injection h2 with h2
      refine ⟨d, ?_, ?_, ?_⟩
      · rw [← h2]; exact hx
      · intro j m q hj
        rw [← h1, e] at hj
        rcases hj with hj | hj | ⟨_, hj⟩ <;> simp at hj
      · intro i m q k' hi hm hmk hq
        rw [← h1, e] at hi
        have : i = i0 := by
          rcases hi with hi | ⟨_, hi⟩ <;> simp_all
        rw [this] at hm hq
        rw [hn] at hm; injection hm with hm; subst hm
        have hkk := (ok.kernel _ _ _ hn hmk).1
        rw [hk] at hkk; injection hkk with hkk
        rw [hcc (hconfW hn hmk)] at hq; injection hq with hq; rw [← hkk, hda, hq]
  choose vcfg hvcfg using key
  have hvv : VValid net vcfg := by
    intro l v vn h1 h2 _
    obtain ⟨vc, h, _⟩ := hvcfg l v vn h1 h2
    exact (List.getElem?_eq_some_iff.mp h).1
  refine ⟨vcfg, _, hvv, reconstruct_some ok hc hvv, fun i n hn hcf => ?_⟩
  obtain ⟨c, hcr, hA, hW⟩ := recon_at ok hc hvv hn hcf
  have hci := List.getElem?_eq_getElem (hv i n hn hcf)
  refine ok.distinct i n hn _ _ _ _ hcr hci (fun ha => ?_) (fun k hk => ?_)
  · obtain ⟨v, vc, hh, ⟨l, vn, hl, hvn, _, hvc⟩, he⟩ := hA ha
    obtain ⟨vc', h1, h2, _⟩ := hvcfg l v vn hl hvn
    rw [hvc] at h1; injection h1 with h1
    rw [he, h1]; exact h2 i n _ hh hn ha hci
  · obtain ⟨v, vc, hh, ⟨l, vn, hl, hvn, _, hvc⟩, he⟩ := hW k hk
    obtain ⟨vc', h1, _, h2⟩ := hvcfg l v vn hl hvn
    rw [hvc] at h1; injection h1 with h1
    rw [he, h1]; exact h2 i n _ k hh hn hk hci

/-- The virtual graph of the example: the input joined with the first kernel, the first activation
joined with the second kernel, and an activation that is not configurable. -/
example : BopsNet exChain ∧ exChain.vcheck = true ∧
    exChain.vnodes = [.reg 0, .pair 0 1, .pair 1 2, .act 2].tail ∧ exChain.vlayers = [0, 1] ∧
    ((exChain.reconstruct fun l => if l = 0 then 1 else 2).map fun c => [c 0, c 1, c 2]) = some [1, 0, 1] :=
  ⟨exChain_ok, by decide +kernel, by decide +kernel, by decide +kernel, by decide +kernel⟩

/-- A layer used twice, whose kernel and activation have two bit-widths, on an input both uses read. -/
def exReused : Net where
  nodes := [
    { reuse := false, attrs := [], kernel := none, cands := [⟨8, []⟩], mode := .quant,
      actSize := 16, inner := false, macs := 0, prev := [] },
    { reuse := false, attrs := [(8, true)], kernel := some 0,
      cands := [⟨8, [8]⟩, ⟨8, [4]⟩, ⟨4, [8]⟩, ⟨4, [4]⟩], mode := .quant, actSize := 4, inner := false,
      macs := 32, prev := [0] },
    { reuse := true, attrs := [(8, true)], kernel := some 0,
      cands := [⟨8, [8]⟩, ⟨8, [4]⟩, ⟨4, [8]⟩, ⟨4, [4]⟩], mode := .quant, actSize := 4, inner := false,
      macs := 32, prev := [0] }]
  cuts := [[0], [0, 1], [1, 2]]

theorem reconAt_reused (vcfg : ℕ → ℕ) (x : ℕ) : exReused.reconAt vcfg 2 ≠ some (some x) := by
  have hv : exReused.vnodes = [.reg 0, .wts 1, .act 1, .wts 2, .act 2] := by decide +kernel
  have hl : exReused.vlayers = [1, 2, 4] := by decide +kernel
  have hw : exReused.collect exReused.matchW vcfg 2 = [] := by
    have p : ∀ c, pickFor 2 (exReused.matchW (.wts 1) c) = none := by
      intro c
      simp only [Net.matchW, Net.matchWts]
      rcases exReused.vnode (.wts 1) with _ | vn
      · rfl
      rcases exReused.nodes[1]? with _ | n
      · rfl
      simp only []
      rcases vn.cands[c]? with _ | vc
      · rfl
      simp only []
      split <;> rfl
    unfold Net.collect
    rw [hl]
    have q : ∀ i c, pickFor 2 (exReused.matchW (.act i) c) = none := fun _ _ => rfl
    simp only [List.filterMap_cons, List.filterMap_nil, hv, List.getElem?_cons_succ, List.getElem?_cons_zero, p, q]
  unfold Net.reconAt
  have hn : exReused.nodes[2]? = some
    { reuse := true, attrs := [(8, true)], kernel := some 0,
      cands := [⟨8, [8]⟩, ⟨8, [4]⟩, ⟨4, [8]⟩, ⟨4, [4]⟩], mode := .quant, actSize := 4, inner := false,
      macs := 32, prev := [0] } := rfl
  rw [hn]
  simp only []
  rw [show Node.anyConfWeight _ = true by decide, show Node.confAct _ = true by decide]
  simp only [if_true]
  rw [hw]
  split_ifs with h
  · simp
  · generalize (exReused.collect exReused.matchA vcfg 2).head? = o
    rcases o with _ | as <;> simp [pickCommon]

/-- C101 is false of the code for reused layers: the reconstruction of every choice fails. -/
theorem C101_reused_violated :
    exReused.vcheck = true ∧ ∀ vcfg, exReused.reconstruct vcfg = none := by
  refine ⟨by decide +kernel, fun vcfg => ?_⟩
  unfold Net.reconstruct
  rw [if_neg]
  rw [Bool.and_eq_true, not_and]
  intro _ h
  have := List.all_eq_true.mp h 2 (by decide)
  unfold Net.entryOk at this
  rw [show exReused.nodes[2]? = some exReused.nodes[2] from rfl] at this
  rcases hr : exReused.reconAt vcfg 2 with _ | _ | x
  · rw [hr] at this; simp at this
  · rw [hr] at this
    simp only [Option.isSome_none] at this
    exact absurd this (by decide)
  · exact reconAt_reused vcfg x hr

/-! ## C18–C21 for the search of a bit-operations target -/

theorem vminCfg_spec {net : Net} {m : ℕ → ℕ} (h : net.vminCfg = some m) {l : ℕ} {v : VNode} {vn : Node}
    (hl : net.vnodes[l]? = some v) (hv : net.vnode v = some vn) (hc : vn.conf = true) :
    findMin vn.cands = some (m l) := by
  unfold Net.vminCfg at h
  split at h
  · exact absurd h (by simp)
  · rename_i ls hls
    simp only [Option.some.injEq] at h
    have := (mapM_isSome _ _).mp (Option.isSome_iff_exists.mpr ⟨_, hls⟩) l (mem_vlayers.mpr ⟨v, vn, hl, hv, hc⟩)
    simp only [hl, Option.bind_some, hv] at this
    obtain ⟨j, hj⟩ := Option.isSome_iff_exists.mp this
    rw [← h]; simp only [hl, Option.bind_some, hv, hj, Option.getD_some]

theorem vminCfg_valid {net : Net} {m : ℕ → ℕ} (h : net.vminCfg = some m) : VValid net m := by
  intro l v vn h1 h2 h3
  obtain ⟨c, hc, _⟩ := findMin_le (vminCfg_spec h h1 h2 h3)
  exact (List.getElem?_eq_some_iff.mp hc).1

theorem vvalid_iff {net : Net} {vcfg : ℕ → ℕ} : (net.vspace (K := K)).Valid vcfg ↔ VValid net vcfg := by
  constructor
  · intro h l v vn h1 h2 h3
    have := h l (mem_vlayers.mpr ⟨v, vn, h1, h2, h3⟩)
    simpa [Net.vspace, h1, h2] using this
  · intro h l hl
    obtain ⟨v, vn, h1, h2, h3⟩ := mem_vlayers.mp hl
    simpa [Net.vspace, h1, h2] using h l v vn h1 h2 h3

theorem vmeets_iff {net : Net} (ok : BopsNet net) (hc : net.vcheck = true) {vcfg : ℕ → ℕ}
    (hv : VValid net vcfg) (target : RU K) :
    (net.vspace (K := K)).Meets target vcfg ↔ (net.space (K := K)).Meets target (net.recon vcfg) := by
  unfold Space.Meets
  simp only [Net.vspace, Net.space, reconstruct_some ok hc hv, Option.bind_some]

theorem satisfies_iff (net : Net) (target : RU K) (cfg : ℕ → ℕ)
    (hact : (.activation ∈ target.restricted ∨ .total ∈ target.restricted) → net.actTargets [] ≠ []) :
    Satisfies net target cfg ↔ (net.space (K := K)).Meets target cfg := by
  rw [computeRU_meets net target cfg hact]
  constructor
  · rintro ⟨ru, h1, h2⟩; exact ⟨ru, h1, fun t _ => h2 t⟩
  · rintro ⟨ru, h1, h2⟩
    refine ⟨ru, h1, fun t => ?_⟩
    by_cases ht : t ∈ target.restricted
    · exact h2 t ht
    · rw [mem_restricted, not_lt_top_iff] at ht
      rw [ht]; exact le_top

/-- C18. Under a bit-operations target: `m` is a choice at the virtual layers, `c` any other. The
utilization of the configuration reconstructed from `c` is that of `m` plus, for each virtual layer, the
difference made by changing only that layer. -/
theorem C18_virtual_prediction_partial (net : Net) (ok : BopsNet net) (hc : net.vcheck = true)
    (hp : BopsPaired net) (m c : ℕ → ℕ) (hm : VValid net m) (hv : VValid net c) (t : Target)
    (rec : (ℕ → ℕ) → (ℕ → ℕ)) (hrec : ∀ x, VValid net x → net.reconstruct x = some (rec x))
    (hdef : ∀ x, VValid net x → (net.utilVec (K := K) (rec x) t).isSome) :
    ∃ u v : List K, net.utilVec (rec m) t = some u ∧ net.utilVec (rec c) t = some v ∧ v.length = u.length ∧
      ∀ e, v.getD e 0 = u.getD e 0 + (net.vlayers.map fun l =>
        ((net.utilVec (rec (setCfg m l (c l))) t).getD []).getD e 0 - u.getD e 0).sum := by
  have hutil : ∀ x, VValid net x → (net.vspace (K := K)).util x t = net.utilVec (rec x) t := by
    intro x hx
    simp only [Net.vspace, hrec x hx, Option.bind_some]
  obtain ⟨a1, a2, a3⟩ := vspace_additive (K := K) net ok hc m hm t (fun _ => hp) c (vvalid_iff.mpr hv)
    (by rw [hutil m hm]; exact hdef m hm)
    (fun l hl x hx => by
      have : VValid net (setCfg m l x) := by
        intro l' v vn h1 h2 h3
        by_cases e : l' = l
        · subst e
          rw [setCfg_same]
          simpa [Net.vspace, h1, h2] using hx
        · rw [setCfg_ne m _ e]; exact hm l' v vn h1 h2 h3
      rw [hutil _ this]; exact hdef _ this)
  rw [hutil c hv] at a1 a2
  rw [hutil m hm] at a2
  obtain ⟨u, hu⟩ := Option.isSome_iff_exists.mp (hdef m hm)
  obtain ⟨v, hv'⟩ := Option.isSome_iff_exists.mp a1
  refine ⟨u, v, hu, hv', ?_, fun e => ?_⟩
  · rw [hu, hv'] at a2; exact a2
  · have a3 := a3 e
    unfold AddAt at a3
    simp only [] at a3
    rw [hutil c hv, hutil m hm, hu, hv'] at a3
    simp only [Option.getD_some] at a3
    rw [a3]
    congr 2
    apply List.map_congr_left
    intro l _
    rw [hutil _ (setCfg_vvalid hm hv l)]

theorem bopsSeparate_of_not_virtual {net : Net} {target : RU K} (h : net.usesVirtual target = false)
    (hb : .bops ∈ target.restricted) : BopsSeparate net := by
  intro i n k a hn hk hp hz j s hj hs hc
  unfold Net.usesVirtual at h
  have h1 : net.nodes.any Node.confAct = true :=
    List.any_eq_true.mpr ⟨s, List.mem_of_getElem? hs, hc.1⟩
  have h2 : net.nodes.any Node.anyConfWeight = true :=
    List.any_eq_true.mpr ⟨n, List.mem_of_getElem? hn, (anyConfWeight_iff n).mpr ⟨k, hc.2⟩⟩
  rw [h1, h2, decide_eq_true hb] at h
  simp at h

theorem vsearch_ok {net : Net} {solve : LP K → Option ((ℕ → ℕ → ℤ) × (ℕ → K))} {target : RU K}
    {sens : ℕ → ℕ → K} {cfg : ℕ → ℕ} (h : net.vsearch solve target sens = .ok cfg) :
    net.vcheck = true ∧ ∃ m v, net.vminCfg = some m ∧ net.vspace.search solve m target sens = .ok v ∧
      net.reconstruct v = some cfg := by
  unfold Net.vsearch at h
  split_ifs at h with h1
  refine ⟨by simpa using h1, ?_⟩
  rcases hm : net.vminCfg with _ | m
  · rw [hm] at h; simp at h
  rw [hm] at h
  simp only [] at h
  rcases hs : (net.vspace (K := K)).search solve m target sens with e | v
  · rw [hs] at h; simp at h
  rw [hs] at h
  simp only [] at h
  rcases hr : net.reconstruct v with _ | c
  · rw [hr] at h; simp at h
  rw [hr] at h
  simp only [Except.ok.injEq] at h
  exact ⟨m, v, rfl, hs, by rw [hr, h]⟩

/-- C19. The configuration that the search returns has a defined utilization within the target, in each
of weights, activation, total and BOPS, including targets of bit operations with kernel bits and
activation bits that both vary. Missing: the total constraint without quantized activations
(`C19_total_without_activations_violated`); an activation with varying bits read by several layers
(`C19_shared_input_violated`) or through a layer that keeps its quantization
(`C19_preserving_violated`). -/
theorem C19_search_partial (net : Net) {solve : LP K → Option ((ℕ → ℕ → ℤ) × (ℕ → K))}
    (hs : SolverOk solve) (target : RU K) (sens : ℕ → ℕ → K)
    (hact : (.activation ∈ target.restricted ∨ .total ∈ target.restricted) → net.actTargets [] ≠ [])
    (hv : net.usesVirtual target = true → BopsNet net ∧ BopsPaired net)
    (cfg : ℕ → ℕ) (h : net.mpSearch solve target sens = .ok cfg) :
    ValidCfg net cfg ∧ Satisfies net target cfg := by
  unfold Net.mpSearch at h
  split_ifs at h with hu
  · obtain ⟨ok, hp⟩ := hv hu
    obtain ⟨hc, m, v, hm, hsr, hr⟩ := vsearch_ok h
    have hmv := vminCfg_valid hm
    obtain ⟨h1, h2, _⟩ := search_ok net.vspace hs m target sens v
      (fun t _ => vspace_additive net ok hc m hmv t (fun _ => hp)) hsr
    have hvv := vvalid_iff.mp h1
    rw [reconstruct_some ok hc hvv] at hr
    injection hr with hr
    rw [← hr]
    exact ⟨recon_valid ok hc hvv,
      (satisfies_iff net target _ hact).mpr ((vmeets_iff ok hc hvv target).mp h2)⟩
  · rcases hm : net.minCfg with _ | m
    · rw [hm] at h; simp at h
    rw [hm] at h
    exact C19_meets_target_partial net hs m target sens (minCfg_valid hm) hact
      (fun hb => bopsSeparate_of_not_virtual (by simpa using hu) hb) cfg h

/-- C20. Under a bit-operations target, with non-negative sensitivities of the virtual layers: the
result is the reconstruction of a choice at the virtual layers, and every configuration within the
target is the reconstruction of choices, none of which has a smaller total sensitivity. -/
theorem C20_virtual_optimal_partial (net : Net) {solve : LP K → Option ((ℕ → ℕ → ℤ) × (ℕ → K))}
    (hs : SolverOk solve) (target : RU K) (sens sens' : ℕ → ℕ → K) (thr : K) (hthr : 0 < thr)
    (hfin : finalizeMetric thr net.vlayers (net.vspace (K := K)).ncand sens = some sens')
    (hnn : ∀ i c, 0 ≤ sens i c)
    (hact : (.activation ∈ target.restricted ∨ .total ∈ target.restricted) → net.actTargets [] ≠ [])
    (hu : net.usesVirtual target = true) (ok : BopsNet net) (hp : BopsPaired net)
    (cfg : ℕ → ℕ) (h : net.mpSearch solve target sens' = .ok cfg) :
    ∃ v, VValid net v ∧ net.reconstruct v = some cfg ∧
      ∀ v' cfg', VValid net v' → net.reconstruct v' = some cfg' → Satisfies net target cfg' →
        (net.vlayers.map fun l => sens l (v l)).sum ≤ (net.vlayers.map fun l => sens l (v' l)).sum := by
  unfold Net.mpSearch at h
  rw [if_pos hu] at h
  obtain ⟨hc, m, v, hm, hsr, hr⟩ := vsearch_ok h
  have hmv := vminCfg_valid hm
  obtain ⟨k, hk, hsc⟩ := finalizeMetric_scale hthr hfin
  obtain ⟨h1, _, h3⟩ := search_ok net.vspace hs m target sens' v
    (fun t _ => vspace_additive net ok hc m hmv t (fun _ => hp)) hsr
  have hvv := vvalid_iff.mp h1
  refine ⟨v, hvv, hr, fun v' cfg' hv' hr' hsat => ?_⟩
  rw [reconstruct_some ok hc hv'] at hr'
  injection hr' with hr'
  rw [← hr'] at hsat
  have := h3 v' (vvalid_iff.mpr hv')
    ((vmeets_iff ok hc hv' target).mpr ((satisfies_iff net target _ hact).mp hsat))
    (fun l _ => by rw [hsc]; exact mul_nonneg (hnn _ _) hk.le)
  have e : ∀ c : ℕ → ℕ, (net.vspace (K := K)).layers.map (fun l => sens' l (c l)) =
      net.vlayers.map fun l => sens l (c l) * k := by
    intro c; apply List.map_congr_left; intro l _; exact hsc _ _
  rw [e, e, sum_map_mul, sum_map_mul] at this
  exact le_of_mul_le_mul_right this hk

theorem allEqual_mem {f : Cand → ℕ} {cs : List Cand} (h : allEqual (cs.map f) = true) {c d : Cand}
    (hc : c ∈ cs) (hd : d ∈ cs) : f c = f d :=
  (allEqual_iff _).mp h _ (List.mem_map_of_mem hc) _ (List.mem_map_of_mem hd)

/-- The reconstruction of the smallest choice has at most the bits of every configuration. -/
theorem vminCfg_le {net : Net} (ok : BopsNet net) (hc : net.vcheck = true) {m : ℕ → ℕ}
    (h : net.vminCfg = some m) (cfg : ℕ → ℕ) : net.BitsLe (net.recon m) cfg := by
  intro i hi n hn c c' hcc hcc'
  obtain ⟨n', hn', hcf⟩ := mem_confNodes.mp hi
  rw [hn] at hn'; injection hn' with e; subst e
  have hmv := vminCfg_valid h
  obtain ⟨q, hq, hA, hW⟩ := recon_at ok hc hmv hn hcf
  rw [hcc] at hq; injection hq with hq; subst hq
  have hcm := List.mem_of_getElem? hcc
  have hcm' := List.mem_of_getElem? hcc'
  have hmin : ∀ {v vc}, Selected net m v vc → ∃ vn, net.vnode v = some vn ∧
      ∀ d ∈ vn.cands, vc.aBits ≤ d.aBits ∧ ∀ k, vc.w k ≤ d.w k := by
    rintro v vc ⟨l, vn, h1, h2, h3, h4⟩
    obtain ⟨d, hd, hle⟩ := findMin_le (vminCfg_spec h h1 h2 h3)
    rw [h4] at hd; injection hd with hd; subst hd
    exact ⟨vn, h2, hle⟩
  refine ⟨fun hq => ?_, fun k s hk => ?_⟩
  · by_cases ha : n.confAct = true
    · obtain ⟨v, vc, hh, hsel, he⟩ := hA ha
      obtain ⟨vn, hvn, hle⟩ := hmin hsel
      obtain ⟨vn', hvn', _, _, hcov, _⟩ := holderA ok hc hn (selected_mem hsel) hh
      rw [hvn] at hvn'; injection hvn' with hvn'; subst hvn'
      obtain ⟨d, hd, hde⟩ := hcov c' hcm'
      rw [he, ← hde]; exact (hle d hd).1
    · have : allEqual (n.cands.map Cand.aBits) = true := by
        unfold Node.confAct at ha
        simpa [hq] using ha
      exact (allEqual_mem this hcm hcm').le
  · by_cases hw : n.confWeight k = true
    · obtain ⟨v, vc, hh, hsel, he⟩ := hW k hw
      obtain ⟨vn, hvn, hle⟩ := hmin hsel
      obtain ⟨vn', hvn', _, _, _, hcov, _⟩ := holderW ok hc hn (ok.kernel i n k hn hw).1 (selected_mem hsel) hh
      rw [hvn] at hvn'; injection hvn' with hvn'; subst hvn'
      obtain ⟨d, hd, hde⟩ := hcov c' hcm'
      rw [he, ← hde]; exact (hle d hd).2 k
    · have : allEqual (n.cands.map fun c => c.w k) = true := by
        unfold Node.confWeight at hw
        rw [hk] at hw
        simpa using hw
      exact (allEqual_mem (f := fun c => c.w k) this hcm hcm').le

/-- C21. Under a bit-operations target with kernel bits and activation bits that both vary: when the
virtual graph can be built and its utilization queries are defined, the search reports that the target
cannot be satisfied exactly when no configuration satisfies it, and otherwise returns a configuration. -/
theorem C21_virtual_reported_iff_partial (net : Net) {solve : LP K → Option ((ℕ → ℕ → ℤ) × (ℕ → K))}
    (hs : SolverOk solve) (target : RU K) (sens : ℕ → ℕ → K) (hnn : ∀ i c, 0 ≤ sens i c)
    (hu : net.usesVirtual target = true) (ok : BopsNet net) (hp : BopsPaired net)
    (hc : net.vcheck = true) (hm : net.vminCfg.isSome)
    (hdef : ∀ t ∈ target.restricted, ∀ cfg, ValidCfg net cfg → (net.utilVec (K := K) cfg t).isSome)
    (hact : (.activation ∈ target.restricted ∨ .total ∈ target.restricted) → net.actTargets [] ≠ []) :
    ((∃ cfg, ValidCfg net cfg ∧ Satisfies net target cfg) →
      ∃ cfg, net.mpSearch solve target sens = .ok cfg) ∧
    ((¬ ∃ cfg, ValidCfg net cfg ∧ Satisfies net target cfg) →
      net.mpSearch solve target sens = .error .unsatisfiable) := by
  obtain ⟨m, hm⟩ := Option.isSome_iff_exists.mp hm
  have hmv := vminCfg_valid hm
  have hutil : ∀ x t, VValid net x → (net.vspace (K := K)).util x t = net.utilVec (net.recon x) t := by
    intro x t hx
    simp only [Net.vspace, reconstruct_some ok hc hx, Option.bind_some]
  have hd : (net.vspace (K := K)).defined m target.restricted = true := by
    unfold Space.defined
    rw [List.all_eq_true]
    intro t ht
    rw [Bool.and_eq_true, List.all_eq_true]
    refine ⟨by rw [hutil m t hmv]; exact hdef t ht _ (recon_valid ok hc hmv), fun l hl => ?_⟩
    rw [List.all_eq_true]
    intro x hx
    have hx := List.mem_range.mp hx
    have : VValid net (setCfg m l x) := by
      intro l' v vn h1 h2 h3
      by_cases e : l' = l
      · subst e
        rw [setCfg_same]
        simpa [Net.vspace, h1, h2] using hx
      · rw [setCfg_ne m _ e]; exact hmv l' v vn h1 h2 h3
    rw [hutil _ t this]
    exact hdef t ht _ (recon_valid ok hc this)
  have hout := search_outcome net.vspace hs m target sens
    (fun t _ => vspace_additive net ok hc m hmv t (fun _ => hp)) hd
    (vvalid_iff.mpr hmv) (fun l _ => hnn l (m l))
  rw [vmeets_iff ok hc hmv target] at hout
  have hmono : ∀ cfg, (net.space (K := K)).Meets target cfg →
      (net.space (K := K)).Meets target (net.recon m) := by
    intro cfg h t ht
    obtain ⟨v, hv, hle⟩ := h t ht
    obtain ⟨u, hu'⟩ := Option.isSome_iff_exists.mp (hdef t ht _ (recon_valid ok hc hmv))
    refine ⟨u, hu', fun x hx => ?_⟩
    have hf := utilVec_mono (vminCfg_le ok hc hm cfg) t hu' hv
    obtain ⟨i, hi, rfl⟩ := List.mem_iff_getElem.mp hx
    have hlen := hf.length_eq
    exact (List.Forall₂.get hf hi (by omega)).trans (hle _ (List.getElem_mem _))
  have hms : net.mpSearch solve target sens = net.vsearch solve target sens := by
    unfold Net.mpSearch; rw [if_pos hu]
  rw [hms]
  unfold Net.vsearch
  rw [hc, hm]
  simp only [Bool.not_true, Bool.false_eq_true, if_false]
  refine ⟨?_, ?_⟩
  · rintro ⟨cfg, _, hcs⟩
    rcases hout with ⟨h1, _⟩ | ⟨_, v, h2⟩
    · exact absurd (hmono cfg ((satisfies_iff net target cfg hact).mp hcs)) h1
    · have hvv := vvalid_iff.mp (search_ok net.vspace hs m target sens v
        (fun t _ => vspace_additive net ok hc m hmv t (fun _ => hp)) h2).1
      rw [h2]
      simp only [reconstruct_some ok hc hvv]
      exact ⟨_, rfl⟩
  · intro h
    rcases hout with ⟨_, h2⟩ | ⟨h1, _⟩
    · rw [h2]
    · exact absurd ⟨_, recon_valid ok hc hmv, (satisfies_iff net target _ hact).mpr h1⟩ h

/-- The hypotheses hold of the example with a target of 2000 bit operations; the search takes the bits
of the input away; with a target of 600 it reports that it cannot. -/
example : exChain.usesVirtual (K := ℚ) ⟨⊤, ⊤, ⊤, 2000⟩ = true ∧ BopsNet exChain ∧ BopsPaired exChain ∧
    exChain.vcheck = true ∧ exChain.vminCfg.isSome ∧
    (exChain.mpSearch (K := ℚ) bruteSolve ⟨⊤, ⊤, ⊤, 2000⟩ (fun _ c => c)).map
      (fun cfg => [cfg 0, cfg 1, cfg 2]) = .ok [1, 0, 0] ∧
    (exChain.mpSearch (K := ℚ) bruteSolve ⟨⊤, ⊤, ⊤, 600⟩ (fun _ c => c)).map
      (fun cfg => [cfg 0, cfg 1, cfg 2]) = .error .unsatisfiable :=
  ⟨by decide +kernel, exChain_ok, exChain_paired, by decide +kernel, by decide +kernel, by decide +kernel,
    by decide +kernel⟩

/-- An input with two bit-widths that two convolutions read, each with two kernel bit-widths. -/
def exShared : Net where
  nodes := [
    { reuse := false, attrs := [], kernel := none, cands := [⟨8, []⟩, ⟨4, []⟩], mode := .quant,
      actSize := 16, inner := false, macs := 0, prev := [] },
    { reuse := false, attrs := [(8, true)], kernel := some 0, cands := [⟨8, [8]⟩, ⟨8, [4]⟩], mode := .quant,
      actSize := 4, inner := false, macs := 1, prev := [0] },
    { reuse := false, attrs := [(8, true)], kernel := some 0, cands := [⟨8, [8]⟩, ⟨8, [4]⟩], mode := .quant,
      actSize := 4, inner := false, macs := 1, prev := [0] }]
  cuts := [[0], [0, 1], [1, 2]]

/-- C19 is false of the code when an activation with varying bits feeds several layers: with a target of
100 bit operations the search returns a configuration of 128. -/
theorem C19_shared_input_violated :
    (exShared.mpSearch (K := ℚ) bruteSolve ⟨⊤, ⊤, ⊤, 100⟩ (fun _ c => c)).map
      (fun cfg => [cfg 0, cfg 1, cfg 2]) = .ok [0, 0, 0] ∧
    exShared.bops (K := ℚ) (fun _ => 0) = some 128 ∧ exShared.bops (K := ℚ) (fun _ => 1) = some 32 :=
  ⟨by decide +kernel, by decide +kernel, by decide +kernel⟩

/-- An input with two bit-widths, a layer that keeps its input's quantization, and a convolution with two
kernel bit-widths. -/
def exPreserve : Net where
  nodes := [
    { reuse := false, attrs := [], kernel := none, cands := [⟨8, []⟩, ⟨4, []⟩], mode := .quant,
      actSize := 16, inner := false, macs := 0, prev := [] },
    { reuse := false, attrs := [], kernel := none, cands := [⟨8, []⟩], mode := .preserve,
      actSize := 16, inner := false, macs := 0, prev := [0] },
    { reuse := false, attrs := [(8, true)], kernel := some 0, cands := [⟨8, [8]⟩, ⟨8, [4]⟩], mode := .quant,
      actSize := 4, inner := false, macs := 1, prev := [1] }]
  cuts := [[0], [0, 1], [1, 2]]

/-- C19 is false of the code when a layer that keeps its input's quantization lies between an activation
with varying bits and the layer that reads it: with a target of 50 bit operations the search returns a
configuration of 64. -/
theorem C19_preserving_violated :
    (exPreserve.mpSearch (K := ℚ) bruteSolve ⟨⊤, ⊤, ⊤, 50⟩ (fun _ c => c)).map
      (fun cfg => [cfg 0, cfg 2]) = .ok [0, 0] ∧
    exPreserve.bops (K := ℚ) (fun _ => 0) = some 64 ∧
    exPreserve.bops (K := ℚ) (fun i => if i = 0 then 1 else 0) = some 32 :=
  ⟨by decide +kernel, by decide +kernel, by decide +kernel⟩

end MCT.MP
