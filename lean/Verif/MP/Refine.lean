import Verif.MP.RULemmas
import Mathlib.Data.Prod.Lex

set_option linter.unusedSectionVars false

/-! # The greedy refinement loop -/

namespace MCT.MP

open MCT.MPSpec

variable {K : Type*} [Field K] [LinearOrder K] [IsStrictOrderedRing K]

/-- The sort key as an element of a lexicographic order. -/
def RU.key (r : RU K) : WithTop K ×ₗ (WithTop K ×ₗ WithTop K) :=
  toLex (r.total, toLex (r.weights, r.activation))

theorem keyLt_iff (a b : RU K) : a.keyLt b = true ↔ a.key < b.key := by
  unfold RU.keyLt RU.key
  rw [Prod.Lex.toLex_lt_toLex, Prod.Lex.toLex_lt_toLex]
  simp only [Bool.or_eq_true, Bool.and_eq_true, decide_eq_true_eq]

theorem firstBest_eq {α : Type*} (l : List (α × RU K)) : firstBest l = leastBy (fun p => p.2.key) l := by
  cases l with
  | nil => rfl
  | cons x xs =>
    simp only [firstBest, leastBy]
    congr 2
    funext b y
    by_cases h : y.2.keyLt b.2 = true
    · rw [if_pos h, if_pos ((keyLt_iff _ _).mp h)]
    · rw [if_neg h, if_neg (fun h' => h ((keyLt_iff _ _).mpr h'))]

theorem w_ge_length {c : Cand} {k : ℕ} (h : c.wBits.length ≤ k) : c.w k = 0 := by
  unfold Cand.w; exact List.getD_eq_default _ _ h

theorem mem_validCands {cands : List Cand} {cur : ℕ} {aR wR : Bool} {c0 : Cand}
    (h0 : cands[cur]? = some c0) (hu : ∀ c ∈ cands, c.wBits.length = c0.wBits.length) {i : ℕ} :
    i ∈ validCands cands cur aR wR ↔ ∃ c, cands[i]? = some c ∧ Upgrade aR wR c0 c := by
  unfold validCands
  rw [h0]
  simp only []
  rw [List.mem_filter, List.mem_range]
  constructor
  · rintro ⟨hi, h⟩
    rw [List.getElem?_eq_getElem hi] at h ⊢
    refine ⟨_, rfl, ?_⟩
    have hlen := hu _ (List.getElem_mem hi)
    generalize cands[i] = c at h hlen
    simp only [] at h
    rw [ite_eq_iff] at h
    rcases h with ⟨_, h⟩ | ⟨hsame, h⟩
    · simp at h
    rw [Bool.and_eq_true, List.all_eq_true] at h
    obtain ⟨hw, ha⟩ := h
    have hwk : ∀ k, c0.w k ≤ c.w k ∧ (wR = false → c.w k = c0.w k) := by
      intro k
      by_cases hk : k < c0.wBits.length
      · have := hw k (List.mem_range.mpr hk)
        cases wR
        · have := of_decide_eq_true this; exact ⟨by omega, fun _ => this⟩
        · exact ⟨of_decide_eq_true this, fun h => absurd h (by simp)⟩
      · rw [w_ge_length (c := c0) (by omega), w_ge_length (c := c) (by omega)]
        exact ⟨le_refl _, fun _ => rfl⟩
    refine ⟨?_, ?_, ?_, fun k => (hwk k).1, fun h k => (hwk k).2 h⟩
    · rintro rfl; exact hsame ⟨rfl, by simp⟩
    · cases aR
      · exact (of_decide_eq_true ha).ge
      · exact of_decide_eq_true ha
    · rintro rfl; exact of_decide_eq_true ha
  · rintro ⟨c, hc, hup⟩
    obtain ⟨hi, _⟩ := List.getElem?_eq_some_iff.mp hc
    refine ⟨hi, ?_⟩
    rw [hc]
    simp only []
    have hlen := hu c (List.mem_of_getElem? hc)
    rw [if_neg]
    · rw [Bool.and_eq_true]
      refine ⟨?_, ?_⟩
      · rw [List.all_eq_true]
        intro k _
        split_ifs with hwR
        · exact decide_eq_true (hup.weights k)
        · exact decide_eq_true (hup.weightsFixed (by simpa using hwR) k)
      · split_ifs with haR
        · exact decide_eq_true hup.act
        · exact decide_eq_true (hup.actFixed (by simpa using haR))
    · rintro ⟨ha, hw⟩
      apply hup.ne
      rw [List.all_eq_true] at hw
      cases c; cases c0
      simp only [Cand.mk.injEq] at *
      refine ⟨ha, ?_⟩
      apply List.ext_getElem hlen
      intro k h1 h2
      have := of_decide_eq_true (hw k (List.mem_range.mpr h2))
      simp only [Cand.w] at this
      rwa [List.getD_eq_getElem _ _ h1, List.getD_eq_getElem _ _ h2] at this

/-- What the refinement needs: candidates list the same attributes, each layer has a maximal
candidate, and the utilization of valid configurations is defined. -/
structure Refinable (net : Net) (ru : (ℕ → ℕ) → Option (RU K)) : Prop where
  uniform : Uniform net
  hasMax : ∀ (i : ℕ) (n : Node), net.nodes[i]? = some n → n.conf = true → (findMax n.cands).isSome
  ruDef : ∀ cfg, ValidCfg net cfg → (ru cfg).isSome

/-- An upgrade of node `i` to candidate `c` that fits, with its utilization. -/
def Fits (net : Net) (ru : (ℕ → ℕ) → Option (RU K)) (target : RU K) (aR wR : Bool) (sol : ℕ → ℕ)
    (i c : ℕ) (r : RU K) : Prop :=
  ∃ n c0 c1, net.nodes[i]? = some n ∧ n.conf = true ∧ n.cands[sol i]? = some c0 ∧
    n.cands[c]? = some c1 ∧ Upgrade aR wR c0 c1 ∧ ru (setCfg sol i c) = some r ∧
    target.satisfiedBy r = true

theorem validCfg_set {net : Net} {sol : ℕ → ℕ} (hv : ValidCfg net sol) {i c : ℕ} {n : Node} {c1 : Cand}
    (hn : net.nodes[i]? = some n) (hc : n.cands[c]? = some c1) : ValidCfg net (setCfg sol i c) := by
  intro j n' hn' hcf
  by_cases e : j = i
  · subst e
    rw [hn] at hn'; injection hn' with hn'; subst hn'
    rw [setCfg_same]; exact (List.getElem?_eq_some_iff.mp hc).1
  · rw [setCfg_ne sol c e]; exact hv j n' hn' hcf

/-- A layer that has the maximal candidate has no upgrade. -/
theorem no_upgrade_at_max {cands : List Cand} {mx : ℕ} {c0 : Cand}
    (hu : ∀ c ∈ cands, c.wBits.length = c0.wBits.length) (hmx : findMax cands = some mx)
    (h0 : cands[mx]? = some c0) {aR wR : Bool} {c : Cand} (hc : c ∈ cands) : ¬ Upgrade aR wR c0 c := by
  intro hup
  obtain ⟨d, hd, hle⟩ := (findMax_iff cands c0.wBits.length hu mx).mp hmx
  have hd0 := hd.1
  rw [h0] at hd0; injection hd0 with e; subst e
  obtain ⟨l1, l2⟩ := hle c hc
  apply hup.ne
  have hlen := hu c hc
  have e1 := hup.act
  have e2 := hup.weights
  cases c; cases c0
  simp only [Cand.mk.injEq] at *
  refine ⟨by omega, ?_⟩
  apply List.ext_getElem hlen
  intro k h1 h2
  have a := l2 k h2
  have b := e2 k
  simp only [Cand.w] at a b
  rw [List.getD_eq_getElem _ _ h1, List.getD_eq_getElem _ _ h2] at a b
  omega

theorem nodeUpgrade_spec {net : Net} {ru : (ℕ → ℕ) → Option (RU K)} (hR : Refinable net ru)
    (target : RU K) (aR wR : Bool) {sol : ℕ → ℕ} (hv : ValidCfg net sol) {i : ℕ} {n : Node}
    (hn : net.nodes[i]? = some n) (hconf : n.conf = true) :
    ∃ u, nodeUpgrade net ru target aR wR sol i = some u ∧
      (u = none → ∀ c r, ¬ Fits net ru target aR wR sol i c r) ∧
      (∀ c r, u = some (c, r) → Fits net ru target aR wR sol i c r ∧
        ∀ c' r', Fits net ru target aR wR sol i c' r' → r.key ≤ r'.key) := by
  obtain ⟨mx, hmx⟩ := Option.isSome_iff_exists.mp (hR.hasMax i n hn hconf)
  obtain ⟨c0, hc0⟩ : ∃ c0, n.cands[sol i]? = some c0 := ⟨_, List.getElem?_eq_getElem (hv i n hn hconf)⟩
  have huni : ∀ c ∈ n.cands, c.wBits.length = c0.wBits.length :=
    fun c hc => hR.uniform i n hn c hc c0 (List.mem_of_getElem? hc0)
  unfold nodeUpgrade
  rw [hn]
  simp only [hmx]
  by_cases hm : sol i = mx
  · rw [if_pos hm]
    refine ⟨none, rfl, fun _ c r hf => ?_, fun c r h => absurd h (by simp)⟩
    obtain ⟨n', d0, d1, hn', _, hd0, hd1, hup, _⟩ := hf
    rw [hn] at hn'; injection hn' with e; subst e
    rw [hc0] at hd0; injection hd0 with e; subst e
    exact no_upgrade_at_max huni hmx (by rw [← hm]; exact hc0) (List.mem_of_getElem? hd1) hup
  · rw [if_neg hm]
    have hdef : ∀ c ∈ validCands n.cands (sol i) aR wR,
        ((ru (setCfg sol i c)).map fun r => (c, r)).isSome := by
      intro c hc
      obtain ⟨c1, hc1, _⟩ := (mem_validCands hc0 huni).mp hc
      rw [Option.isSome_map]
      exact hR.ruDef _ (validCfg_set hv hn hc1)
    obtain ⟨l, hl⟩ := Option.isSome_iff_exists.mp ((mapM_isSome _ _).mpr hdef)
    rw [hl]
    simp only []
    rw [Common.mapM_some_iff] at hl
    have hmem : ∀ c r, (c, r) ∈ l ↔ c ∈ validCands n.cands (sol i) aR wR ∧ ru (setCfg sol i c) = some r := by
      clear hdef
      intro c r
      generalize validCands n.cands (sol i) aR wR = L at hl
      induction hl with
      | nil => simp
      | cons e _ ih =>
        obtain ⟨x, hx, rfl⟩ := Option.map_eq_some_iff.mp e
        rw [List.mem_cons, ih, List.mem_cons, Prod.mk.injEq]
        constructor
        · rintro (⟨rfl, rfl⟩ | h)
          · exact ⟨Or.inl rfl, hx⟩
          · exact ⟨Or.inr h.1, h.2⟩
        · rintro ⟨rfl | h, h2⟩
          · left; rw [hx] at h2; injection h2 with h2; exact ⟨rfl, h2.symm⟩
          · exact Or.inr ⟨h, h2⟩
    have hfit : ∀ c r, (c, r) ∈ l.filter (fun p => target.satisfiedBy p.2) ↔
        Fits net ru target aR wR sol i c r := by
      intro c r
      rw [List.mem_filter, hmem, mem_validCands hc0 huni]
      constructor
      · rintro ⟨⟨⟨c1, h1, h2⟩, h3⟩, h4⟩
        exact ⟨n, c0, c1, hn, hconf, hc0, h1, h2, h3, h4⟩
      · rintro ⟨n', d0, d1, hn', _, hd0, hd1, hup, hr, hs⟩
        rw [hn] at hn'; injection hn' with e; subst e
        rw [hc0] at hd0; injection hd0 with e; subst e
        exact ⟨⟨⟨d1, hd1, hup⟩, hr⟩, hs⟩
    refine ⟨_, rfl, fun h c r hf => ?_, fun c r h => ?_⟩
    · rw [firstBest_eq] at h
      have := (hfit c r).mpr hf
      rw [leastBy_none h] at this; simp at this
    · rw [firstBest_eq] at h
      obtain ⟨h1, h2⟩ := leastBy_spec h
      exact ⟨(hfit c r).mp h1, fun c' r' hf => h2 (c', r') ((hfit c' r').mpr hf)⟩

theorem refineRound_spec {net : Net} {ru : (ℕ → ℕ) → Option (RU K)} (hR : Refinable net ru)
    (target : RU K) (aR wR : Bool) {sol : ℕ → ℕ} (hv : ValidCfg net sol) :
    (refineRound net ru target aR wR sol = some none ∧
      ∀ i c r, ¬ Fits net ru target aR wR sol i c r) ∨
    (∃ i c r, refineRound net ru target aR wR sol = some (some (setCfg sol i c)) ∧
      Fits net ru target aR wR sol i c r ∧
      ∀ i' c' r', Fits net ru target aR wR sol i' c' r' → r.key ≤ r'.key) := by
  have hnode : ∀ i ∈ net.confNodes, ∃ n, net.nodes[i]? = some n ∧ n.conf = true :=
    fun i hi => mem_confNodes.mp hi
  have hdef : ∀ i ∈ net.confNodes, ((nodeUpgrade net ru target aR wR sol i).map fun u =>
      u.map fun p => ((i, p.1), p.2)).isSome := by
    intro i hi
    obtain ⟨n, hn, hc⟩ := hnode i hi
    obtain ⟨u, hu, _⟩ := nodeUpgrade_spec hR target aR wR hv hn hc
    rw [hu]; rfl
  obtain ⟨us, hus⟩ := Option.isSome_iff_exists.mp ((mapM_isSome _ _).mpr hdef)
  have hus' := hus
  rw [Common.mapM_some_iff] at hus'
  have hmem : ∀ i c r, ((i, c), r) ∈ us.filterMap id ↔
      i ∈ net.confNodes ∧ nodeUpgrade net ru target aR wR sol i = some (some (c, r)) := by
    intro i c r
    rw [List.mem_filterMap]
    simp only [id]
    clear hdef hnode hus
    generalize net.confNodes = L at hus'
    induction hus' with
    | nil => simp
    | @cons j u js us' e _ ih =>
      obtain ⟨v, hv', rfl⟩ := Option.map_eq_some_iff.mp e
      constructor
      · rintro ⟨x, hx, he⟩
        rcases List.mem_cons.mp hx with h | h
        · rw [h] at he
          obtain ⟨⟨c', r'⟩, hp, hq⟩ := Option.map_eq_some_iff.mp he
          simp only [Prod.mk.injEq] at hq
          obtain ⟨⟨rfl, rfl⟩, rfl⟩ := hq
          exact ⟨by simp, by rw [hv', hp]⟩
        · obtain ⟨h1, h2⟩ := ih.mp ⟨x, h, he⟩
          exact ⟨List.mem_cons_of_mem _ h1, h2⟩
      · rintro ⟨h1, h2⟩
        rcases List.mem_cons.mp h1 with rfl | h1
        · refine ⟨_, List.mem_cons_self, ?_⟩
          rw [hv'] at h2; injection h2 with h2; rw [h2]; rfl
        · obtain ⟨x, hx, he⟩ := ih.mpr ⟨h1, h2⟩
          exact ⟨x, List.mem_cons_of_mem _ hx, he⟩
  unfold refineRound
  rw [hus]
  simp only []
  rcases hb : firstBest (us.filterMap id) with _ | ⟨⟨i, c⟩, r⟩
  · left
    refine ⟨rfl, fun i c r hf => ?_⟩
    have hf' := hf
    obtain ⟨n, c0, c1, hn, hconf, _⟩ := hf'
    obtain ⟨u, hu, h1, h2⟩ := nodeUpgrade_spec hR target aR wR hv hn hconf
    rcases u with _ | ⟨c', r'⟩
    · exact h1 rfl c r hf
    · rw [firstBest_eq] at hb
      have : ((i, c'), r') ∈ us.filterMap id := (hmem i c' r').mpr ⟨mem_confNodes.mpr ⟨n, hn, hconf⟩, hu⟩
      rw [leastBy_none hb] at this; simp at this
  · right
    rw [firstBest_eq] at hb
    obtain ⟨m1, m2⟩ := leastBy_spec hb
    obtain ⟨hi, hu⟩ := (hmem i c r).mp m1
    obtain ⟨n, hn, hconf⟩ := hnode i hi
    obtain ⟨u, hu', _, h2⟩ := nodeUpgrade_spec hR target aR wR hv hn hconf
    rw [hu] at hu'; injection hu' with hu'
    refine ⟨i, c, r, rfl, (h2 c r hu'.symm).1, fun i' c' r' hf => ?_⟩
    have hf' := hf
    obtain ⟨n', d0, d1, hn', hconf', _⟩ := hf'
    obtain ⟨v, hv', g1, g2⟩ := nodeUpgrade_spec hR target aR wR hv hn' hconf'
    rcases v with _ | ⟨c2, r2⟩
    · exact absurd hf (g1 rfl c' r')
    · have hm2 : ((i', c2), r2) ∈ us.filterMap id :=
        (hmem i' c2 r2).mpr ⟨mem_confNodes.mpr ⟨n', hn', hconf'⟩, hv'⟩
      exact (m2 _ hm2).trans ((g2 c2 r2 rfl).2 c' r' hf)

/-! ### Termination -/

/-- All the bits of a candidate. -/
def Cand.total (c : Cand) : ℕ := c.aBits + c.wBits.sum

theorem upgrade_total {aR wR : Bool} {c0 c : Cand} (hlen : c.wBits.length = c0.wBits.length)
    (h : Upgrade aR wR c0 c) : c0.total < c.total := by
  have hne := h.ne
  have ha := h.act
  have hw := h.weights
  cases c with | mk a w => cases c0 with | mk a0 w0 =>
  simp only [Cand.total] at *
  have key : ∀ (w w0 : List ℕ), w.length = w0.length → (∀ k, w0.getD k 0 ≤ w.getD k 0) →
      w0.sum ≤ w.sum ∧ (w0.sum = w.sum → w = w0) := by
    intro w
    induction w with
    | nil => intro w0 h _; cases w0 with | nil => simp | cons => simp at h
    | cons x w ih =>
      intro w0 h hk
      cases w0 with
      | nil => simp at h
      | cons y w0 =>
        have h0 := hk 0
        simp at h0
        obtain ⟨i1, i2⟩ := ih w0 (by simpa using h) (fun k => by have := hk (k + 1); simpa using this)
        simp only [List.sum_cons]
        refine ⟨by omega, fun e => ?_⟩
        rw [i2 (by omega)]
        congr 1; omega
  obtain ⟨k1, k2⟩ := key w w0 hlen (fun k => hw k)
  by_contra hcon
  apply hne
  rw [k2 (by omega)]
  congr 1; omega

/-- Bits selected at node `i`. -/
def selTotal (net : Net) (sol : ℕ → ℕ) (i : ℕ) : ℕ :=
  match net.nodes[i]? with
  | some n => ((n.cands[sol i]?).map Cand.total).getD 0
  | none => 0

/-- Bits of all the candidates of node `i`. -/
def allTotal (net : Net) (i : ℕ) : ℕ :=
  match net.nodes[i]? with
  | some n => (n.cands.map Cand.total).sum
  | none => 0

theorem selTotal_le (net : Net) (sol : ℕ → ℕ) (i : ℕ) : selTotal net sol i ≤ allTotal net i := by
  unfold selTotal allTotal
  rcases net.nodes[i]? with _ | n
  · exact le_refl _
  · simp only []
    rcases hc : n.cands[sol i]? with _ | c
    · simp
    · simp only [Option.map_some, Option.getD_some]
      exact List.single_le_sum (by simp) _ (List.mem_map_of_mem (List.mem_of_getElem? hc))

/-- Bits selected in the whole network. -/
def measureSol (net : Net) (sol : ℕ → ℕ) : ℕ := (net.confNodes.map (selTotal net sol)).sum

/-- A bound on the number of rounds. -/
def roundBound (net : Net) : ℕ := (net.confNodes.map (allTotal net)).sum + 1

theorem measure_lt_bound (net : Net) (sol : ℕ → ℕ) : measureSol net sol < roundBound net := by
  unfold measureSol roundBound
  have : (net.confNodes.map (selTotal net sol)).sum ≤ (net.confNodes.map (allTotal net)).sum :=
    List.sum_le_sum fun i _ => selTotal_le net sol i
  omega

theorem measure_set {net : Net} {sol : ℕ → ℕ} {i c : ℕ} (hi : i ∈ net.confNodes)
    (h : selTotal net sol i < selTotal net (setCfg sol i c) i) :
    measureSol net sol < measureSol net (setCfg sol i c) := by
  unfold measureSol
  have hother : ∀ j, j ≠ i → selTotal net (setCfg sol i c) j = selTotal net sol j := by
    intro j hj; unfold selTotal; rw [setCfg_ne sol c hj]
  have key : ∀ l : List ℕ, i ∈ l →
      (l.map (selTotal net sol)).sum < (l.map (selTotal net (setCfg sol i c))).sum := by
    intro l
    induction l with
    | nil => simp
    | cons a l ih =>
      intro hmem
      simp only [List.map_cons, List.sum_cons]
      have hle : (l.map (selTotal net sol)).sum ≤ (l.map (selTotal net (setCfg sol i c))).sum := by
        apply List.sum_le_sum
        intro j _
        by_cases e : j = i
        · rw [e]; exact h.le
        · rw [hother j e]
      by_cases e : a = i
      · subst e; omega
      · have := ih (by
          rcases List.mem_cons.mp hmem with e' | e'
          · exact absurd e'.symm e
          · exact e')
        rw [hother a e]; omega
  exact key _ hi

/-- The whole loop. -/
theorem refineLoop_spec {net : Net} {ru : (ℕ → ℕ) → Option (RU K)} (hR : Refinable net ru)
    (target : RU K) (aR wR : Bool) (fuel : ℕ) (sol : ℕ → ℕ) (hv : ValidCfg net sol)
    (hsat : ∃ r, ru sol = some r ∧ target.satisfiedBy r = true)
    (hfuel : roundBound net ≤ fuel + measureSol net sol) :
    ∃ res, refineLoop net ru target aR wR fuel sol = some res ∧ ValidCfg net res ∧
      (∃ r, ru res = some r ∧ target.satisfiedBy r = true) ∧
      (∀ i c r, ¬ Fits net ru target aR wR res i c r) ∧
      (∀ (i : ℕ) (n : Node), net.nodes[i]? = some n → n.conf = true →
        ∀ c0 c1, n.cands[sol i]? = some c0 → n.cands[res i]? = some c1 →
          c0 = c1 ∨ Upgrade aR wR c0 c1) := by
  induction fuel generalizing sol with
  | zero =>
    have := measure_lt_bound net sol
    omega
  | succ fuel ih =>
    unfold refineLoop
    rcases refineRound_spec hR target aR wR hv with ⟨h1, h2⟩ | ⟨i, c, r, h1, h2, _⟩
    · rw [h1]
      refine ⟨sol, rfl, hv, hsat, h2, fun i n _ _ c0 c1 e0 e1 => ?_⟩
      rw [e0] at e1; injection e1 with e1; exact Or.inl e1
    · rw [h1]
      simp only []
      obtain ⟨n, c0, c1, hn, hconf, hc0, hc1, hup, hru, hs⟩ := h2
      have hi : i ∈ net.confNodes := mem_confNodes.mpr ⟨n, hn, hconf⟩
      have hlen : c1.wBits.length = c0.wBits.length :=
        hR.uniform i n hn c1 (List.mem_of_getElem? hc1) c0 (List.mem_of_getElem? hc0)
      have hmeas : measureSol net sol < measureSol net (setCfg sol i c) := by
        apply measure_set hi
        unfold selTotal
        rw [hn]
        simp only [setCfg_same, hc0, hc1, Option.map_some, Option.getD_some]
        exact upgrade_total hlen hup
      obtain ⟨res, g1, g2, g3, g4, g5⟩ := ih (setCfg sol i c) (validCfg_set hv hn hc1) ⟨r, hru, hs⟩ (by omega)
      refine ⟨res, g1, g2, g3, g4, fun j n' hn' hconf' d0 d1 e0 e1 => ?_⟩
      by_cases e : j = i
      · subst e
        rw [hn] at hn'; injection hn' with hn'; subst hn'
        rw [hc0] at e0; injection e0 with e0; subst e0
        have := g5 j n hn hconf c1 d1 (by rw [setCfg_same]; exact hc1) e1
        rcases this with rfl | hup2
        · exact Or.inr hup
        · right
          refine ⟨?_, hup.act.trans hup2.act, fun h => (hup2.actFixed h).trans (hup.actFixed h),
            fun k => (hup.weights k).trans (hup2.weights k),
            fun h k => (hup2.weightsFixed h k).trans (hup.weightsFixed h k)⟩
          intro hd
          have t1 := upgrade_total hlen hup
          have hlen2 : d1.wBits.length = c1.wBits.length :=
            hR.uniform j n hn d1 (List.mem_of_getElem? e1) c1 (List.mem_of_getElem? hc1)
          have t2 := upgrade_total hlen2 hup2
          rw [hd] at t2
          omega
      · exact g5 j n' hn' hconf' d0 d1 (by rw [setCfg_ne sol c e]; exact e0) e1

end MCT.MP
