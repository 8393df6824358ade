import Verif.MP.VirtualLemmas

set_option linter.unusedSectionVars false
set_option linter.unusedVariables false
set_option linter.unusedSimpArgs false

/-! # Reconstruction of a configuration from the virtual graph -/

namespace MCT.MP

open MCT.MPSpec

theorem vcheck_spec {net : Net} (h : net.vcheck = true) {i : ℕ} {n : Node} (hn : net.nodes[i]? = some n) :
    n.splitOk = true ∧ ∀ k, n.kernel = some k → ∃ a na, n.prev = [a] ∧ net.nodes[a]? = some na := by
  unfold Net.vcheck at h
  have := List.all_eq_true.mp h n (List.mem_of_getElem? hn)
  rw [Bool.and_eq_true] at this
  refine ⟨this.1, fun k hk => ?_⟩
  have h2 := this.2
  rw [hk] at h2
  simp only [] at h2
  rcases hp : n.prev with _ | ⟨a, _ | ⟨b, l⟩⟩
  · rw [hp] at h2; simp at h2
  · rw [hp] at h2
    simp only [] at h2
    rcases ha : net.nodes[a]? with _ | na
    · rw [ha] at h2; simp at h2
    · exact ⟨a, na, rfl, ha⟩
  · rw [hp] at h2; simp at h2

theorem splitOk_spec {n : Node} (h : n.splitOk = true) {k : ℕ} (hk : n.kernel = some k)
    (hw : n.confWeight k = true) (ha : n.confAct = true) {c d : Cand} (hc : c ∈ n.cands) (hd : d ∈ n.cands) :
    ∃ q ∈ n.cands, q.w k = c.w k ∧ q.aBits = d.aBits := by
  unfold Node.splitOk at h
  rw [hk] at h
  simp only [hw, ha, Bool.and_self, if_true] at h
  obtain ⟨w, hw', ew⟩ := (mem_uniqueW_bits k n.cands _).mpr ⟨c, hc, rfl⟩
  obtain ⟨a, ha', ea⟩ := (mem_uniqueA_bits n.cands _).mpr ⟨d, hd, rfl⟩
  have h1 := List.all_eq_true.mp h w hw'
  have h2 := List.all_eq_true.mp h1 a ha'
  obtain ⟨q, hq, h3⟩ := List.any_eq_true.mp h2
  rw [Bool.and_eq_true, decide_eq_true_eq, decide_eq_true_eq] at h3
  exact ⟨q, hq, h3.1.trans ew, h3.2.trans ea⟩

theorem matchAct_eq {net : Net} {v : VNode} {i c : ℕ} {vn n : Node} {vc : Cand}
    (hv : net.vnode v = some vn) (hn : net.nodes[i]? = some n) (hc : vn.cands[c]? = some vc)
    (hex : ∃ q ∈ n.cands, q.aBits = vc.aBits) :
    net.matchAct v i c = some (some (i, positions (fun q => decide (q.aBits = vc.aBits)) n.cands)) := by
  unfold Net.matchAct
  rw [hv, hn]
  simp only [hc]
  obtain ⟨q, hq, e⟩ := hex
  obtain ⟨x, hx⟩ := List.mem_iff_getElem?.mp hq
  have hm : x ∈ positions (fun q => decide (q.aBits = vc.aBits)) n.cands :=
    positions_mem.mpr ⟨q, hx, by simpa using e⟩
  generalize positions (fun q => decide (q.aBits = vc.aBits)) n.cands = l at hm ⊢
  cases l with
  | nil => simp at hm
  | cons a l => rfl

theorem matchWts_eq {net : Net} {v : VNode} {i c : ℕ} {vn n : Node} {vc : Cand}
    (hv : net.vnode v = some vn) (hn : net.nodes[i]? = some n) (hc : vn.cands[c]? = some vc)
    (hex : ∃ q ∈ n.cands, ∀ j, q.w j = vc.w j) :
    net.matchWts v i c = some (some (i, positions (fun q =>
      ((List.range n.attrs.length).filter vn.confWeight).all fun k => decide (q.w k = vc.w k)) n.cands)) := by
  unfold Net.matchWts
  rw [hv, hn]
  simp only [hc]
  obtain ⟨q, hq, e⟩ := hex
  obtain ⟨x, hx⟩ := List.mem_iff_getElem?.mp hq
  have hm : x ∈ positions (fun q =>
      ((List.range n.attrs.length).filter vn.confWeight).all fun k => decide (q.w k = vc.w k)) n.cands :=
    positions_mem.mpr ⟨q, hx, by rw [List.all_eq_true]; intro k _; simpa using e k⟩
  generalize positions (fun q =>
      ((List.range n.attrs.length).filter vn.confWeight).all fun k => decide (q.w k = vc.w k)) n.cands = l at hm ⊢
  cases l with
  | nil => simp at hm
  | cons a l => rfl

theorem only_kernel {net : Net} (ok : BopsNet net) {i : ℕ} {n : Node} (hn : net.nodes[i]? = some n) {k : ℕ}
    (hk : n.kernel = some k) (j : ℕ) (hj : n.confWeight j = true) : j = k := by
  have := (ok.kernel i n j hn hj).1
  rw [hk] at this; injection this with e; exact e.symm

/-- The node that holds the activation of `j`. -/
theorem holderA {net : Net} (ok : BopsNet net) (hc : net.vcheck = true) {j : ℕ} {n : Node}
    (hn : net.nodes[j]? = some n) {v : VNode} (hv : v ∈ net.vnodes) (h : HoldsAct v j) :
    ∃ vn, net.vnode v = some vn ∧ vn.confAct = n.confAct ∧ vn.cands ≠ [] ∧
      (∀ q ∈ n.cands, ∃ vc ∈ vn.cands, vc.aBits = q.aBits) ∧
      ∀ c vc, vn.cands[c]? = some vc → (∃ q ∈ n.cands, q.aBits = vc.aBits) ∧
        ∃ cs, net.matchA v c = some (some (j, cs)) ∧ cs.Nodup ∧
          ∀ x, x ∈ cs ↔ ∃ q, n.cands[x]? = some q ∧ q.aBits = vc.aBits := by
  have hpos : ∀ (vn : Node) (c : ℕ) (vc : Cand), net.vnode v = some vn → vn.cands[c]? = some vc →
      (∃ q ∈ n.cands, q.aBits = vc.aBits) → net.matchA v c = net.matchAct v j c →
      ∃ cs, net.matchA v c = some (some (j, cs)) ∧ cs.Nodup ∧
          ∀ x, x ∈ cs ↔ ∃ q, n.cands[x]? = some q ∧ q.aBits = vc.aBits := by
    intro vn c vc h1 h2 h3 h4
    refine ⟨_, h4.trans (matchAct_eq h1 hn h2 h3), positions_nodup _ _, fun x => ?_⟩
    rw [positions_mem]
    simp
  rw [mem_vnodes] at hv
  obtain ⟨n', hn', hv'⟩ := mem_vpart.mp hv
  rcases h with e | e | ⟨i, e⟩
  · -- an original node
    rw [e] at hn' hv'
    have hk : n.kernel = none := by
      rcases hv' with ⟨_, hk, _⟩ | ⟨e', _⟩ | ⟨a, e', _⟩ | ⟨e', _⟩
      · have : n' = n := by
          have hx : net.nodes[j]? = some n' := hn'
          rw [hn] at hx; injection hx with hx; exact hx.symm
        rw [← this]; exact hk
      all_goals cases e'
    refine ⟨n, by rw [e]; exact hn, rfl, ok.cands j n hn, fun q hq => ⟨q, hq, rfl⟩, fun c vc hvc => ?_⟩
    refine ⟨⟨vc, List.mem_of_getElem? hvc, rfl⟩, [c], by rw [e]; rfl, by simp, fun x => ?_⟩
    rw [List.mem_singleton]
    constructor
    · intro e'; rw [e']; exact ⟨vc, hvc, rfl⟩
    · rintro ⟨q, hq, e'⟩
      refine ok.distinct j n hn x c q vc hq hvc (fun _ => e') fun k hk' => ?_
      have := (ok.kernel j n k hn hk').1
      rw [hk] at this; simp at this
  · have hvn : net.vnode v = some n.actPart := by rw [e]; simp [Net.vnode, hn]
    refine ⟨n.actPart, hvn, actPart_confAct n, uniqueA_ne_nil (ok.cands j n hn),
      fun q hq => (mem_uniqueA_bits n.cands q.aBits).mpr ⟨q, hq, rfl⟩, fun c vc hvc => ?_⟩
    have hex := (mem_uniqueA_bits n.cands vc.aBits).mp ⟨vc, List.mem_of_getElem? hvc, rfl⟩
    exact ⟨hex, hpos _ c vc hvn hvc hex (by rw [e]; rfl)⟩
  · have hmain : v.main = i := by rw [e]; rfl
    rw [hmain] at hn' hv'
    have hk : n'.kernel.isSome = true := by
      rw [e] at hv'
      rcases hv' with ⟨e', _⟩ | ⟨e', _⟩ | ⟨a, e', hk, _⟩ | ⟨e', _⟩
      · cases e'
      · cases e'
      · exact hk
      · cases e'
    obtain ⟨k, hk⟩ := Option.isSome_iff_exists.mp hk
    have hvn : net.vnode v = some (n.pair n' k) := by rw [e]; simp [Net.vnode, hn, hn', hk]
    have hne := ok.cands i n' hn'
    have hne' := ok.cands j n hn
    obtain ⟨cw, hcw⟩ := List.exists_mem_of_ne_nil _ hne
    refine ⟨_, hvn, pair_confAct hne, ?_, fun q hq => ?_, fun c vc hvc => ?_⟩
    · obtain ⟨q, hq⟩ := List.exists_mem_of_ne_nil _ hne'
      obtain ⟨d, hd, _⟩ := pair_cover (k := k) hq hcw
      exact List.ne_nil_of_mem hd
    · obtain ⟨d, hd, h1, _⟩ := pair_cover (k := k) hq hcw
      exact ⟨d, hd, h1⟩
    · obtain ⟨⟨d, hd, h1⟩, _⟩ := pair_mem (List.mem_of_getElem? hvc)
      have hex : ∃ q ∈ n.cands, q.aBits = vc.aBits := ⟨d, hd, h1.symm⟩
      exact ⟨hex, hpos _ c vc hvn hvc hex (by rw [e]; rfl)⟩

/-- The node that holds the weights of `i`. -/
theorem holderW {net : Net} (ok : BopsNet net) (hc : net.vcheck = true) {i k : ℕ} {n : Node}
    (hn : net.nodes[i]? = some n) (hk : n.kernel = some k) {v : VNode} (hv : v ∈ net.vnodes)
    (h : HoldsWts v i) :
    ∃ vn, net.vnode v = some vn ∧ (∀ j, vn.confWeight j = n.confWeight j) ∧ vn.kernel = some k ∧
      vn.reuse = n.reuse ∧ (∀ q ∈ n.cands, ∃ vc ∈ vn.cands, vc.w k = q.w k) ∧
      ∀ c vc, vn.cands[c]? = some vc → (∃ q ∈ n.cands, ∀ j, q.w j = vc.w j) ∧
        ∃ cs, net.matchW v c = some (some (i, cs)) ∧ cs.Nodup ∧
          ∀ x, x ∈ cs ↔ ∃ q, n.cands[x]? = some q ∧ ∀ j, n.confWeight j = true → q.w j = vc.w j := by
  have hpos : ∀ (vn : Node) (c : ℕ) (vc : Cand), net.vnode v = some vn → vn.cands[c]? = some vc →
      (∀ j, vn.confWeight j = n.confWeight j) →
      (∃ q ∈ n.cands, ∀ j, q.w j = vc.w j) → net.matchW v c = net.matchWts v i c →
      ∃ cs, net.matchW v c = some (some (i, cs)) ∧ cs.Nodup ∧
          ∀ x, x ∈ cs ↔ ∃ q, n.cands[x]? = some q ∧ ∀ j, n.confWeight j = true → q.w j = vc.w j := by
    intro vn c vc h1 h2 hcw h3 h4
    refine ⟨_, h4.trans (matchWts_eq h1 hn h2 h3), positions_nodup _ _, fun x => ?_⟩
    rw [positions_mem]
    constructor
    · rintro ⟨q, hq, hall⟩
      refine ⟨q, hq, fun j hj => ?_⟩
      have := List.all_eq_true.mp hall j (List.mem_filter.mpr
        ⟨List.mem_range.mpr (confWeight_lt hj), by rw [hcw]; exact hj⟩)
      simpa using this
    · rintro ⟨q, hq, hall⟩
      refine ⟨q, hq, List.all_eq_true.mpr fun j hj => ?_⟩
      obtain ⟨_, hj⟩ := List.mem_filter.mp hj
      rw [hcw] at hj
      simpa using hall j hj
  have hok := only_kernel ok hn hk
  rw [mem_vnodes] at hv
  obtain ⟨n', hn', hv'⟩ := mem_vpart.mp hv
  rcases h with e | ⟨a, e⟩
  · have hvn : net.vnode v = some (n.wtsPart k) := by rw [e]; simp [Net.vnode, hn, hk]
    have hcw := wtsPart_confWeight hok
    refine ⟨_, hvn, hcw, hk, rfl, fun q hq => (wtsPart_bits n k _).mpr ⟨q, hq, rfl⟩, fun c vc hvc => ?_⟩
    obtain ⟨d, hd, h1⟩ := wtsPart_mem (List.mem_of_getElem? hvc)
    have hex : ∃ q ∈ n.cands, ∀ j, q.w j = vc.w j := ⟨d, hd, fun j => (h1 j).symm⟩
    exact ⟨hex, hpos _ c vc hvn hvc hcw hex (by rw [e]; rfl)⟩
  · obtain ⟨_, hpr⟩ := vcheck_spec hc hn
    obtain ⟨b, na, hp, hna⟩ := hpr k hk
    have hab : a = b := by
      have hmain : v.main = i := by rw [e]; rfl
      rw [hmain, hn] at hn'; injection hn' with hnn; subst hnn
      rw [e] at hv'
      rcases hv' with ⟨e', _⟩ | ⟨e', _⟩ | ⟨c, e', _, hp', _⟩ | ⟨e', _⟩
      · cases e'
      · cases e'
      · cases e'; rw [hp] at hp'; injection hp' with h1 _; exact h1.symm
      · cases e'
    subst hab
    have hvn : net.vnode v = some (na.pair n k) := by rw [e]; simp [Net.vnode, hna, hn, hk]
    have hcw := pair_confWeight (ok.cands a na hna) hok
    refine ⟨_, hvn, hcw, hk, rfl, fun q' hq' => ?_, fun c vc hvc => ?_⟩
    · obtain ⟨q, hq⟩ := List.exists_mem_of_ne_nil _ (ok.cands a na hna)
      obtain ⟨d, hd, _, h2⟩ := pair_cover (k := k) hq hq'
      exact ⟨d, hd, h2⟩
    · obtain ⟨_, d, hd, h1⟩ := pair_mem (List.mem_of_getElem? hvc)
      have hex : ∃ q ∈ n.cands, ∀ j, q.w j = vc.w j := ⟨d, hd, fun j => (h1 j).symm⟩
      exact ⟨hex, hpos _ c vc hvn hvc hcw hex (by rw [e]; rfl)⟩

theorem filterMap_single {α β : Type} {f : α → Option β} {L : List α} (hL : L.Nodup) {l : α} (hl : l ∈ L)
    {y : β} (hy : f l = some y) (hne : ∀ l' ∈ L, l' ≠ l → f l' = none) : L.filterMap f = [y] := by
  induction L with
  | nil => simp at hl
  | cons a L ih =>
    rw [List.nodup_cons] at hL
    rcases List.mem_cons.mp hl with e | e
    · have hnil : L.filterMap f = [] := by
        rw [List.filterMap_eq_nil_iff]
        intro b hb
        exact hne b (List.mem_cons_of_mem _ hb) fun h => hL.1 (by rw [← e, ← h]; exact hb)
      rw [← e, List.filterMap_cons_some hy, hnil]
    · have ha : f a = none := hne a (by simp) fun h => hL.1 (by rw [h]; exact e)
      rw [List.filterMap_cons_none ha]
      exact ih hL.2 e fun l' hl' => hne l' (List.mem_cons_of_mem _ hl')

theorem pickFor_matchA {net : Net} {v : VNode} {i c : ℕ} {cs : List ℕ}
    (h : pickFor i (net.matchA v c) = some cs) : HoldsAct v i := by
  have hm : ∀ j, pickFor i (net.matchAct v j c) = some cs → j = i := by
    intro j h
    unfold Net.matchAct at h
    split at h
    · rename_i vn n _ _
      rcases hc : vn.cands[c]? with _ | vc
      · rw [hc] at h; simp [pickFor] at h
      · rw [hc] at h
        simp only [] at h
        split at h
        · simp [pickFor] at h
        · unfold pickFor at h
          simp only [] at h
          split_ifs at h with e
          exact e
    · simp [pickFor] at h
  cases v with
  | reg j =>
    unfold Net.matchA pickFor at h
    simp only [] at h
    split_ifs at h with e
    rw [e]; exact Or.inl rfl
  | wts j => simp [Net.matchA, pickFor] at h
  | act j => rw [hm j h]; exact Or.inr (Or.inl rfl)
  | pair a j => rw [hm a h]; exact Or.inr (Or.inr ⟨j, rfl⟩)

theorem pickFor_matchW {net : Net} {v : VNode} {i c : ℕ} {cs : List ℕ}
    (h : pickFor i (net.matchW v c) = some cs) : HoldsWts v i ∨ v = .reg i := by
  have hm : ∀ j, pickFor i (net.matchWts v j c) = some cs → j = i := by
    intro j h
    unfold Net.matchWts at h
    split at h
    · rename_i vn n _ _
      rcases hc : vn.cands[c]? with _ | vc
      · rw [hc] at h; simp [pickFor] at h
      · rw [hc] at h
        simp only [] at h
        split at h
        · simp [pickFor] at h
        · unfold pickFor at h
          simp only [] at h
          split_ifs at h with e
          exact e
    · simp [pickFor] at h
  cases v with
  | reg j =>
    unfold Net.matchW pickFor at h
    simp only [] at h
    rcases hn : net.nodes[j]? with _ | n
    · rw [hn] at h; simp at h
    · rw [hn] at h
      by_cases e : n.attrs.isEmpty = true
      · simp [e] at h
      · simp [e] at h
        exact Or.inr (by rw [h.1])
  | act j => simp [Net.matchW, pickFor] at h
  | wts j => rw [hm j h]; exact Or.inl (Or.inl rfl)
  | pair a j => rw [hm j h]; exact Or.inl (Or.inr ⟨a, rfl⟩)

/-- What is collected for a node: the proposal of its only holder. -/
theorem collect_eq {net : Net} {f : VNode → ℕ → Option (Option (ℕ × List ℕ))} {vcfg : ℕ → ℕ} {i l : ℕ}
    {v : VNode} {cs : List ℕ} (hl : l ∈ net.vlayers) (hv : net.vnodes[l]? = some v)
    (hf : f v (vcfg l) = some (some (i, cs)))
    (huniq : ∀ v' ∈ net.vnodes, ∀ c cs', pickFor i (f v' c) = some cs' → v' = v) :
    net.collect f vcfg i = [cs] := by
  unfold Net.collect
  apply filterMap_single (vlayers_nodup net) hl
  · rw [hv]; simp [hf, pickFor]
  · intro l' hl' hne
    obtain ⟨v', _, hv', _, _⟩ := mem_vlayers.mp hl'
    rw [hv']
    simp only []
    rcases hp : pickFor i (f v' (vcfg l')) with _ | cs'
    · rfl
    · have := huniq v' (List.mem_of_getElem? hv') _ _ hp
      rw [this] at hv'
      exact absurd (vnodes_inj hv' hv) hne

theorem eq_singleton_of {l : List ℕ} (hl : l.Nodup) {x : ℕ} (hx : x ∈ l) (h : ∀ y ∈ l, y = x) : l = [x] := by
  cases l with
  | nil => simp at hx
  | cons a l =>
    have ha := h a (by simp)
    cases l with
    | nil => rw [ha]
    | cons b l =>
      have hb := h b (by simp)
      rw [List.nodup_cons] at hl
      exact absurd (by rw [ha, hb]; simp) hl.1

theorem conf_iff {net : Net} (ok : BopsNet net) {i : ℕ} {n : Node} (hn : net.nodes[i]? = some n) :
    n.conf = true ↔ n.confAct = true ∨ n.anyConfWeight = true := by
  unfold Node.conf
  rw [Bool.or_eq_true, anyConfWeight_iff]
  constructor
  · rintro (h | h)
    · exact Or.inl h
    · unfold Node.confKernel at h
      rcases hk : n.kernel with _ | k
      · rw [hk] at h; simp at h
      · rw [hk] at h
        simp only [Bool.and_eq_true] at h
        exact Or.inr ⟨k, h.1⟩
  · rintro (h | ⟨k, h⟩)
    · exact Or.inl h
    · obtain ⟨h1, h2⟩ := ok.kernel i n k hn h
      refine Or.inr ?_
      unfold Node.confKernel
      rw [h1]; simp [h, h2]

/-- The entry of a configurable node: a candidate with the activation bits selected by the holder of
its activation and the weight bits selected by the holder of its weights. -/
theorem reconAt_spec {net : Net} (ok : BopsNet net) (hc : net.vcheck = true) {vcfg : ℕ → ℕ}
    (hv : VValid net vcfg) {i : ℕ} {n : Node} (hn : net.nodes[i]? = some n) :
    (n.conf = false → net.reconAt vcfg i = some none) ∧
    (n.conf = true → ∃ x c, net.reconAt vcfg i = some (some x) ∧ n.cands[x]? = some c ∧
      (n.confAct = true → ∃ v vc, HoldsAct v i ∧ Selected net vcfg v vc ∧ c.aBits = vc.aBits) ∧
      (∀ k, n.confWeight k = true → ∃ v vc, HoldsWts v i ∧ Selected net vcfg v vc ∧ c.w k = vc.w k)) := by
  -- collected activations
  have hA : n.confAct = true → ∃ v vc cs, HoldsAct v i ∧ Selected net vcfg v vc ∧
      (∃ q ∈ n.cands, q.aBits = vc.aBits) ∧
      net.collect net.matchA vcfg i = [cs] ∧ cs.Nodup ∧
      ∀ x, x ∈ cs ↔ ∃ q, n.cands[x]? = some q ∧ q.aBits = vc.aBits := by
    intro ha
    obtain ⟨v, hvm, hh⟩ := exists_holdsAct hn
    obtain ⟨vn, h1, h2, _, _, h5⟩ := holderA ok hc hn hvm hh
    obtain ⟨l, hl⟩ := List.mem_iff_getElem?.mp hvm
    have hconf : vn.conf = true := by unfold Node.conf; rw [h2, ha]; rfl
    have hlt := hv l v vn hl h1 hconf
    obtain ⟨hex, cs, hm, hnd, hmem⟩ := h5 (vcfg l) _ (List.getElem?_eq_getElem hlt)
    refine ⟨v, _, cs, hh, ⟨l, vn, hl, h1, hconf, List.getElem?_eq_getElem hlt⟩, hex, ?_, hnd, hmem⟩
    exact collect_eq (mem_vlayers.mpr ⟨v, vn, hl, h1, hconf⟩) hl hm
      fun v' hv' c cs' hp => holdsAct_unique hv' hvm (pickFor_matchA hp) hh
  -- collected weights
  have hW : n.anyConfWeight = true → ∃ k v vc cs, n.kernel = some k ∧ n.confWeight k = true ∧ HoldsWts v i ∧
      Selected net vcfg v vc ∧ (∃ q ∈ n.cands, ∀ j, q.w j = vc.w j) ∧
      net.collect net.matchW vcfg i = [cs] ∧ cs.Nodup ∧
      ∀ x, x ∈ cs ↔ ∃ q, n.cands[x]? = some q ∧ ∀ j, n.confWeight j = true → q.w j = vc.w j := by
    intro hw
    obtain ⟨k, hk⟩ := (anyConfWeight_iff n).mp hw
    obtain ⟨hkk, hr⟩ := ok.kernel i n k hn hk
    obtain ⟨v, hvm, hh⟩ := exists_holdsWts hn hkk
    obtain ⟨vn, h1, h2, h3, h4, _, h5⟩ := holderW ok hc hn hkk hvm hh
    obtain ⟨l, hl⟩ := List.mem_iff_getElem?.mp hvm
    have hconf : vn.conf = true := by
      unfold Node.conf Node.confKernel
      rw [h3]; simp [h2, hk, h4, hr]
    have hlt := hv l v vn hl h1 hconf
    obtain ⟨hex, cs, hm, hnd, hmem⟩ := h5 (vcfg l) _ (List.getElem?_eq_getElem hlt)
    refine ⟨k, v, _, cs, hkk, hk, hh, ⟨l, vn, hl, h1, hconf, List.getElem?_eq_getElem hlt⟩, hex, ?_, hnd, hmem⟩
    refine collect_eq (mem_vlayers.mpr ⟨v, vn, hl, h1, hconf⟩) hl hm fun v' hv' c cs' hp => ?_
    rcases pickFor_matchW hp with e | e
    · exact holdsWts_unique hv' hvm e hh
    · rw [e, mem_vnodes] at hv'
      obtain ⟨n', hn', h'⟩ := mem_vpart.mp hv'
      have hn'' : net.nodes[i]? = some n' := hn'
      rw [hn] at hn''; injection hn'' with hnn; subst hnn
      rcases h' with ⟨_, hkn, _⟩ | ⟨e', _⟩ | ⟨a, e', _⟩ | ⟨e', _⟩
      · rw [hkk] at hkn; simp at hkn
      all_goals cases e'
  have hcf := conf_iff ok hn
  have hwx : n.anyConfWeight = false → ∀ k, n.confWeight k = true → False := by
    intro h k hk
    rw [(anyConfWeight_iff n).mpr ⟨k, hk⟩] at h; simp at h
  rcases ha : n.confAct with _ | _ <;> rcases hw : n.anyConfWeight with _ | _
  · have hnc : n.conf = false := by
      cases h : n.conf
      · rfl
      · rcases hcf.mp h with e | e
        · rw [ha] at e; simp at e
        · rw [hw] at e; simp at e
    refine ⟨fun _ => ?_, fun h => by rw [hnc] at h; simp at h⟩
    unfold Net.reconAt; rw [hn]; simp [ha, hw, pickCommon]
  · refine ⟨fun h => by rw [hcf.mpr (Or.inr hw)] at h; simp at h, fun _ => ?_⟩
    obtain ⟨k, v, vc, cs, hkk, hk, hh, hsel, ⟨q, hq, hqe⟩, hcol, hnd, hmem⟩ := hW hw
    obtain ⟨x, hx⟩ := List.mem_iff_getElem?.mp hq
    have hxm : x ∈ cs := (hmem x).mpr ⟨q, hx, fun j _ => hqe j⟩
    have hs : cs = [x] := eq_singleton_of hnd hxm fun y hy => by
      obtain ⟨q', hq', he⟩ := (hmem y).mp hy
      exact ok.distinct i n hn y x q' q hq' hx (fun h => by rw [ha] at h; simp at h)
        fun j hj => (he j hj).trans (hqe j).symm
    refine ⟨x, q, ?_, hx, fun h => by simp at h, fun j hj => ⟨v, vc, hh, hsel, hqe j⟩⟩
    unfold Net.reconAt; rw [hn]; simp [ha, hw, hcol, hs, pickCommon]
  · refine ⟨fun h => by rw [hcf.mpr (Or.inl ha)] at h; simp at h, fun _ => ?_⟩
    obtain ⟨v, vc, cs, hh, hsel, ⟨q, hq, hqe⟩, hcol, hnd, hmem⟩ := hA ha
    obtain ⟨x, hx⟩ := List.mem_iff_getElem?.mp hq
    have hxm : x ∈ cs := (hmem x).mpr ⟨q, hx, hqe⟩
    have hs : cs = [x] := eq_singleton_of hnd hxm fun y hy => by
      obtain ⟨q', hq', he⟩ := (hmem y).mp hy
      exact ok.distinct i n hn y x q' q hq' hx (fun _ => he.trans hqe.symm)
        fun j hj => (hwx hw j hj).elim
    refine ⟨x, q, ?_, hx, fun _ => ⟨v, vc, hh, hsel, hqe⟩, fun j hj => (hwx hw j hj).elim⟩
    unfold Net.reconAt; rw [hn]; simp [ha, hw, hcol, hs, pickCommon]
  · refine ⟨fun h => by rw [hcf.mpr (Or.inl ha)] at h; simp at h, fun _ => ?_⟩
    obtain ⟨v, vc, cs, hh, hsel, ⟨q, hq, hqe⟩, hcol, hnd, hmem⟩ := hA ha
    obtain ⟨k, v', vc', cs', hkk, hk, hh', hsel', ⟨q', hq', hqe'⟩, hcol', hnd', hmem'⟩ := hW hw
    obtain ⟨r, hr, hrw, hra⟩ := splitOk_spec (vcheck_spec hc hn).1 hkk hk ha hq' hq
    obtain ⟨x, hx⟩ := List.mem_iff_getElem?.mp hr
    have hokk := only_kernel ok hn hkk
    have hxm : x ∈ cs.filter (fun c => decide (c ∈ cs')) := by
      rw [List.mem_filter, decide_eq_true_eq]
      exact ⟨(hmem x).mpr ⟨r, hx, hra.trans hqe⟩, (hmem' x).mpr ⟨r, hx, fun j hj => by
        rw [hokk j hj]; exact hrw.trans (hqe' k)⟩⟩
    have hs : cs.filter (fun c => decide (c ∈ cs')) = [x] :=
      eq_singleton_of (hnd.filter _) hxm fun y hy => by
        rw [List.mem_filter, decide_eq_true_eq] at hy
        obtain ⟨s, hs, he⟩ := (hmem y).mp hy.1
        obtain ⟨s', hs', he'⟩ := (hmem' y).mp hy.2
        rw [hs] at hs'; injection hs' with hss; subst hss
        exact ok.distinct i n hn y x s r hs hx (fun _ => he.trans (hra.trans hqe).symm)
          fun j hj => by rw [he' j hj, hokk j hj]; exact (hrw.trans (hqe' k)).symm
    refine ⟨x, r, ?_, hx, fun _ => ⟨v, vc, hh, hsel, hra.trans hqe⟩, fun j hj => ⟨v', vc', hh', hsel', ?_⟩⟩
    · unfold Net.reconAt; rw [hn]; simp [ha, hw, hcol, hcol', pickCommon, hs]
    · rw [hokk j hj]; exact hrw.trans (hqe' k)

theorem vnode_some {net : Net} (ok : BopsNet net) (hc : net.vcheck = true) {v : VNode} (hv : v ∈ net.vnodes) :
    (∃ j n, net.nodes[j]? = some n ∧ HoldsAct v j) ∨
      ∃ i n k, net.nodes[i]? = some n ∧ n.kernel = some k ∧ v = .wts i := by
  rw [mem_vnodes] at hv
  obtain ⟨n, hn, h⟩ := mem_vpart.mp hv
  rcases h with ⟨e, _⟩ | ⟨e, _⟩ | ⟨a, e, hk, hp, _⟩ | ⟨e, hk, _⟩
  · exact Or.inl ⟨_, n, hn, Or.inl e⟩
  · exact Or.inl ⟨_, n, hn, Or.inr (Or.inl e)⟩
  · obtain ⟨k, hk⟩ := Option.isSome_iff_exists.mp hk
    obtain ⟨b, na, hp', hna⟩ := (vcheck_spec hc hn).2 k hk
    rw [hp] at hp'; injection hp' with hab _
    exact Or.inl ⟨a, na, by rw [hab]; exact hna, Or.inr (Or.inr ⟨_, e⟩)⟩
  · obtain ⟨k, hk⟩ := Option.isSome_iff_exists.mp hk
    exact Or.inr ⟨_, n, k, hn, hk, e⟩

theorem retrievable_true {net : Net} (ok : BopsNet net) (hc : net.vcheck = true) {vcfg : ℕ → ℕ}
    (hv : VValid net vcfg) : net.retrievable vcfg = true := by
  unfold Net.retrievable
  rw [List.all_eq_true]
  intro l hl
  obtain ⟨v, vn, h1, h2, h3⟩ := mem_vlayers.mp hl
  rw [h1]
  simp only []
  have hvm := List.mem_of_getElem? h1
  have hlt := List.getElem?_eq_getElem (hv l v vn h1 h2 h3)
  rw [Bool.and_eq_true]
  constructor
  · rcases vnode_some ok hc hvm with ⟨j, n, hn, hh⟩ | ⟨i, n, k, hn, hk, e⟩
    · obtain ⟨vn', e1, _, _, _, h5⟩ := holderA ok hc hn hvm hh
      rw [h2] at e1; injection e1 with e1; subst e1
      obtain ⟨_, cs, hm, _⟩ := h5 _ _ hlt
      rw [hm]; rfl
    · rw [e]; rfl
  · have hw : ∀ i n k, net.nodes[i]? = some n → n.kernel = some k → HoldsWts v i →
        (net.matchW v (vcfg l)).isSome = true := by
      intro i n k hn hk hh
      obtain ⟨vn', e1, _, _, _, _, h5⟩ := holderW ok hc hn hk hvm hh
      rw [h2] at e1; injection e1 with e1; subst e1
      obtain ⟨_, cs, hm, _⟩ := h5 _ _ hlt
      rw [hm]; rfl
    obtain ⟨n, hn, h⟩ := mem_vpart.mp (mem_vnodes.mp hvm)
    rcases h with ⟨e, _⟩ | ⟨e, _⟩ | ⟨a, e, hk, _⟩ | ⟨e, hk, _⟩
    · rw [e]
      unfold Net.matchW
      simp only [hn]
      split_ifs <;> rfl
    · rw [e]; rfl
    · obtain ⟨k, hk⟩ := Option.isSome_iff_exists.mp hk
      exact hw _ n k hn hk (Or.inr ⟨a, e⟩)
    · obtain ⟨k, hk⟩ := Option.isSome_iff_exists.mp hk
      exact hw _ n k hn hk (Or.inl e)

/-- The configuration read from an assignment of the virtual layers. -/
def Net.recon (net : Net) (vcfg : ℕ → ℕ) : ℕ → ℕ := fun i => ((net.reconAt vcfg i).getD none).getD 0

theorem reconstruct_some {net : Net} (ok : BopsNet net) (hc : net.vcheck = true) {vcfg : ℕ → ℕ}
    (hv : VValid net vcfg) : net.reconstruct vcfg = some (net.recon vcfg) := by
  unfold Net.reconstruct
  rw [if_pos]
  · rfl
  rw [Bool.and_eq_true]
  refine ⟨retrievable_true ok hc hv, List.all_eq_true.mpr fun i hi => ?_⟩
  have hn := List.getElem?_eq_getElem (List.mem_range.mp hi)
  obtain ⟨h1, h2⟩ := reconAt_spec ok hc hv hn
  unfold Net.entryOk
  rw [hn]
  cases hcf : (net.nodes[i]'(List.mem_range.mp hi)).conf
  · rw [h1 hcf]; simp [hcf]
  · obtain ⟨x, c, hx, _⟩ := h2 hcf
    rw [hx]; simp [hcf]

end MCT.MP
