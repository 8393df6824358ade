import Verif.Pruning.SectionLemmas
import Verif.Pruning.WeightLemmas
import Verif.Pruning.SectionSpec

/-! # Pruning sections: properties C43, C61–C64 -/

namespace MCT.Pruning
open MCT.PruningSpec

/-! ### C61 -/

theorem soleLink_of {g : PGraph} {a b : ℕ} (h : g.outs a = [b]) (hd : g.inDeg b = 1) : SoleLink g a b := by
  have hmem : (a, b) ∈ g.edges := mem_outs.1 (by rw [h]; simp)
  have hin : g.edges.filter (fun e => decide (e.2 = b)) = [(a, b)] := by
    obtain ⟨e, he⟩ := List.length_eq_one_iff.1 hd
    have : (a, b) ∈ g.edges.filter fun e => decide (e.2 = b) := by simp [hmem]
    rw [he, List.mem_singleton] at this
    rw [he, this]
  refine ⟨?_, ?_⟩
  · have h1 : g.edges.count (a, b) ≤ (g.edges.filter fun e => decide (e.2 = b)).count (a, b) := by
      rw [List.count_filter (by simp)]
    rw [hin] at h1
    have h2 : 0 < g.edges.count (a, b) := List.count_pos_iff.2 hmem
    simp at h1
    omega
  · rintro ⟨x, y⟩ he hxy
    rcases hxy with hxy | hxy
    · simp only at hxy; subst hxy
      have : y ∈ g.outs x := mem_outs.2 he
      rw [h, List.mem_singleton] at this; rw [this]
    · have : (x, y) ∈ g.edges.filter fun e => decide (e.2 = b) := by
        simp only [List.mem_filter, decide_eq_true_eq]; exact ⟨he, hxy⟩
      rw [hin, List.mem_singleton] at this; exact this

theorem of_soleLink {g : PGraph} {a b : ℕ} (h : SoleLink g a b) : g.outs a = [b] ∧ g.inDeg b = 1 := by
  obtain ⟨h1, h2⟩ := h
  have key : ∀ p : ℕ × ℕ → Bool, p (a, b) = true → (∀ e ∈ g.edges, p e = true → e = (a, b)) →
      g.edges.filter p = [(a, b)] := by
    intro p hp hq
    have hall : ∀ e ∈ g.edges.filter p, e = (a, b) := by
      intro e he; rw [List.mem_filter] at he; exact hq e he.1 he.2
    have hr := List.eq_replicate_of_mem hall
    have hc : (g.edges.filter p).count (a, b) = 1 := by rw [List.count_filter hp, h1]
    rw [hr, List.count_replicate_self] at hc
    rw [hr, hc]; rfl
  constructor
  · unfold PGraph.outs
    rw [key _ (by simp) (fun e he hp => h2 e he (.inl (by simpa using hp)))]; rfl
  · unfold PGraph.inDeg
    rw [key _ (by simp) (fun e he hp => h2 e he (.inr (by simpa using hp)))]; rfl

theorem isChain_links {g : PGraph} : ∀ (ms : List ℕ) (cur x : ℕ), IsChain g cur ms x →
    List.IsChain (SoleLink g) (cur :: (ms ++ [x]))
  | [], cur, x, h => by
    simpa using soleLink_of h.1 h.2
  | m :: ms, cur, x, h => by
    obtain ⟨h1, h2, _, h4⟩ := h
    rw [List.cons_append, List.isChain_cons_cons]
    exact ⟨soleLink_of h1 h2, isChain_links ms m x h4⟩

theorem isChain_of_links {g : PGraph} : ∀ (ms : List ℕ) (cur x : ℕ),
    List.IsChain (SoleLink g) (cur :: (ms ++ [x])) → (∀ m ∈ ms, g.inter m = true) → IsChain g cur ms x
  | [], cur, x, h, _ => by
    rw [List.nil_append, List.isChain_cons_cons] at h
    exact of_soleLink h.1
  | m :: ms, cur, x, h, hi => by
    rw [List.cons_append, List.isChain_cons_cons] at h
    obtain ⟨h1, h2⟩ := of_soleLink h.1
    exact ⟨h1, h2, hi m (by simp), isChain_of_links ms m x h.2 (fun k hk => hi k (by simp [hk]))⟩

theorem prunable_of_chain {g : PGraph} (hty : ∀ i, g.entry i = true → g.inter i = false) {e x : ℕ}
    (hx : g.isExit x e = true) : ∀ (ms : List ℕ) (fuel cur : ℕ), IsChain g cur ms x → ms.length < fuel →
      g.prunableFrom fuel e cur = true ∧ g.findExit fuel e cur = some (ms, x)
  | [], fuel, cur, h, hf => by
    obtain ⟨f, rfl⟩ : ∃ f, fuel = f + 1 := ⟨fuel - 1, by simp at hf; omega⟩
    constructor
    · simp [PGraph.prunableFrom, h.1, h.2, hx]
    · simp [PGraph.findExit, h.1, hx]
  | m :: ms, fuel, cur, h, hf => by
    obtain ⟨f, rfl⟩ : ∃ f, fuel = f + 1 := ⟨fuel - 1, by simp at hf; omega⟩
    obtain ⟨h1, h2, h3, h4⟩ := h
    have hne : g.isExit m e = false := by
      by_contra hc
      simp only [PGraph.isExit, Bool.not_eq_false, Bool.and_eq_true] at hc
      rw [hty m hc.1] at h3; simp at h3
    have hlen : (g.outs m).length = 1 := by
      cases ms with
      | nil => rw [h4.1]; rfl
      | cons k ms => rw [h4.1]; rfl
    obtain ⟨i1, i2⟩ := prunable_of_chain hty hx ms f m h4 (by simpa using hf)
    constructor
    · simp [PGraph.prunableFrom, h1, h2, h3, hne, hlen, i1]
    · simp [PGraph.findExit, h1, hne, i2]

/-- **C61.** Finding the sections succeeds, and what it finds are sections: chains of layers linked by sole
edges.  Two different sections share at most the exit of one that is the entry of the other. -/
theorem C61_sections (g : PGraph) (hg : WellFormed g) : ∃ ss, g.sections = some ss ∧
    (∀ s ∈ ss, IsSection g s ∧ s.nodes.Nodup ∧ ∀ i ∈ s.nodes, i < g.n) ∧
    (∀ s ∈ ss, ∀ t ∈ ss, s ≠ t → ∀ i, i ∈ s.nodes → i ∈ t.nodes →
      (i = s.exit ∧ i = t.entry) ∨ (i = s.entry ∧ i = t.exit)) := by
  obtain ⟨ss, h1, h2, h3⟩ := sections_spec g hg.kinds
  have hL := layout_of g hg.forward hg.bound hg.kinds h1
  refine ⟨ss, h1, ?_, ?_⟩
  · intro s hs
    refine ⟨⟨(h3 s hs).entry, (h3 s hs).exit, (h3 s hs).chan, fun m hm => ((h3 s hs).reach m hm).2,
      isChain_links _ _ _ (h3 s hs).chain⟩, ?_, hL.lt s hs⟩
    exact (chain_sorted hg.forward _ _ _ (h3 s hs).chain).imp (fun h => ne_of_lt h)
  · intro s hs t ht hne i hi hj
    simp only [Section.nodes, List.mem_cons, List.mem_append, List.not_mem_nil, or_false] at hi hj
    rcases hi with hi | hi | hi <;> rcases hj with hj | hj | hj
    · exact absurd (sec_eq hL.entries hs ht (hi.symm.trans hj)) hne
    · exact absurd hi (hL.sep t ht s hs i hj).1
    · exact .inr ⟨hi, hj⟩
    · exact absurd hj (hL.sep s hs t ht i hi).1
    · have h4 := (h3 s hs).reach i hi
      have h5 := (h3 t ht).reach i hj
      exact absurd (sec_eq hL.entries hs ht
        (h4.1.inj (hg.kinds _ (h3 s hs).entry) (hg.kinds _ (h3 t ht).entry) h5.1)) hne
    · exact absurd hj (hL.sep s hs t ht i hi).2
    · exact .inl ⟨hi, hj⟩
    · exact absurd hi (hL.sep t ht s hs i hj).2
    · exact absurd ((List.nodup_map_iff_inj_on hL.entries.of_map).1 hL.exits s hs t ht
        (hi.symm.trans hj)) hne

/-- **C61.** No section is missed. -/
theorem C61_complete (g : PGraph) (hg : WellFormed g) {ss : List Section} (h : g.sections = some ss)
    (s : Section) (hs : IsSection g s) : s ∈ ss := by
  have hc := isChain_of_links _ _ _ hs.links hs.inters
  have hsort := chain_sorted hg.forward _ _ _ hc
  have hlt : s.inters.length < g.n + 1 := by
    have hsub : (s.inters ++ [s.exit]).Nodup :=
      (List.pairwise_cons.1 hsort).2.imp (fun h => ne_of_lt h)
    have hb : ∀ i ∈ s.inters ++ [s.exit], i ∈ List.range g.n := by
      have hr := chain_reach (e := s.entry) s.inters s.entry s.exit (.inl rfl) hc
      have hlt : ∀ y, Reach g s.entry y → y < g.n := by
        intro y hr
        cases hr with
        | first _ h _ => exact hg.bound _ (mem_outs.1 h)
        | step _ _ _ _ h _ => exact hg.bound _ (mem_outs.1 h)
      intro i hi
      rw [List.mem_range]
      rcases List.mem_append.1 hi with hi | hi
      · exact hlt i (hr.1 i hi).1
      · rw [List.mem_singleton] at hi; subst hi; exact hlt _ hr.2
    have := (hsub.subperm hb).length_le
    simp at this
    omega
  have hen : s.entry < g.n := by
    have := (List.pairwise_cons.1 hsort).1 s.exit (by simp)
    have hr := (chain_reach (e := s.entry) s.inters s.entry s.exit (.inl rfl) hc).2
    have : s.exit < g.n := by
      cases hr with
      | first _ h _ => exact hg.bound _ (mem_outs.1 h)
      | step _ _ _ _ h _ => exact hg.bound _ (mem_outs.1 h)
    omega
  obtain ⟨p1, p2⟩ := prunable_of_chain hg.kinds (e := s.entry) (x := s.exit)
    (by simp [PGraph.isExit, hs.exit, hs.channels]) s.inters (g.n + 1) s.entry hc hlt
  have hmem : s.entry ∈ g.entryNodes := by
    simp [PGraph.entryNodes, hen, hs.entry, p1]
  have hcs : g.createSection s.entry = some s := by
    simp [PGraph.createSection, hs.entry, p2, PGraph.isExit, hs.exit, hs.channels]
  unfold PGraph.sections at h
  have : ∀ (l : List ℕ) (ss : List Section), l.mapM g.createSection = some ss → s.entry ∈ l → s ∈ ss := by
    intro l
    induction l with
    | nil => intro ss _ hm; simp at hm
    | cons k l ih =>
      intro ss hss hm
      rw [List.mapM_cons] at hss
      cases hk : g.createSection k with
      | none => simp [hk] at hss
      | some t =>
        cases hl : l.mapM g.createSection with
        | none => simp [hk, hl] at hss
        | some tl =>
          simp [hk, hl] at hss
          subst hss
          rcases List.mem_cons.1 hm with hm | hm
          · subst hm; rw [hcs] at hk; cases hk; simp
          · simp [ih tl hl hm]
  exact this _ ss h hmem

/-- Three convolutions in a row with an activation between the first two. -/
def exG : PGraph where
  n := 5
  edges := [(0, 1), (1, 2), (2, 3), (3, 4)]
  outputs := [4]
  entry i := decide (i = 0 ∨ i = 2 ∨ i = 3)
  inter i := decide (i = 1 ∨ i = 4)
  chanMatch _ _ := true

theorem exG_wf : WellFormed exG where
  forward := by decide
  bound := by decide
  kinds := by
    intro i h
    simp only [exG, decide_eq_true_eq, decide_eq_false_iff_not] at *
    omega

example : exG.sections = some [⟨0, [1], 2⟩, ⟨2, [], 3⟩] := by decide +kernel
example : WellFormed exG := exG_wf
example : IsSection exG ⟨0, [1], 2⟩ where
  entry := by decide
  exit := by decide
  channels := by decide
  inters := by decide
  links := by
    simp only [Section.nodes, List.cons_append, List.nil_append, List.isChain_cons_cons,
      List.isChain_singleton, and_true]
    unfold SoleLink
    decide

/-! ### C62 -/

/-- **C62.** The parameter count the search steers by is the parameter count of the pruned graph. -/
theorem C62_estimate (g : PGraph) (hg : WellFormed g) {ss : List Section} (h : g.sections = some ss)
    (w : ℕ → List PAttr) (masks : ℕ → Option (List Bool)) (nic : ℕ → ℕ) (hf : Fits g ss w masks nic)
    {w' : ℕ → List PAttr} (hb : buildPruned w ss masks = some w') :
    estimate g.n ss masks nic (fun i => nodeParams (w i)) = graphParams g.n w' := by
  have hL := layout_of g hg.forward hg.bound hg.kinds h
  have hw := buildPruned_spec masks ss w w' hL hf.axes hb
  have hm : ∀ s ∈ ss, ∃ m, masks s.entry = some m := by
    have : ∀ (l : List Section) (v v' : ℕ → List PAttr), buildPruned v l masks = some v' →
        ∀ s ∈ l, ∃ m, masks s.entry = some m := by
      intro l
      induction l with
      | nil => intro _ _ _ s hs; simp at hs
      | cons t l ih =>
        intro v v' hv s hs
        unfold buildPruned at hv
        rw [List.foldlM_cons] at hv
        cases hm : masks t.entry with
        | none => simp [hm] at hv
        | some m =>
          simp only [hm, Option.bind_eq_bind, Option.bind_some] at hv
          rcases List.mem_cons.1 hs with hs | hs
          · subst hs; exact ⟨m, hm⟩
          · exact ih _ _ hv s hs
    exact this ss w w' hb
  let f : ℕ → ℤ := fun i => (((w' i).map fun a => a.shape.prod).sum : ℕ)
  -- masks of a node seen as exit
  have hIn : ∀ i, (∃ s ∈ ss, s.entry = i) → ∀ a ∈ w i,
      SameSlice a.shape a.inAx (inputMask ss masks nic i) (effIn masks ss i) := by
    intro i _ a ha
    by_cases hx : ∃ s ∈ ss, s.exit = i
    · obtain ⟨s, hs, rfl⟩ := hx
      obtain ⟨m, hms⟩ := hm s hs
      rw [inputMask_exit hL masks nic hs, effIn_exit hL masks hs, hms]
      exact sameSlice_eff hms (hf.inp s hs m hms a ha)
    · push Not at hx
      rw [inputMask_other masks nic hx, effIn_other masks hx]
      right; right
      refine ⟨rfl, _, rfl, ?_, ?_⟩
      · rw [List.any_eq_false]
        intro b hb
        rw [List.eq_of_mem_replicate hb]; simp
      · intro k hk
        rw [hf.nic i a ha k hk]; simp
  have hexitOut : ∀ s ∈ ss, ∀ a ∈ w s.exit,
      SameSlice a.shape a.outAx (masks s.exit) (effOut masks ss s.exit) := by
    intro s hs a ha
    by_cases hx : ∃ t ∈ ss, t.entry = s.exit
    · obtain ⟨t, ht, hte⟩ := hx
      obtain ⟨m, hmt⟩ := hm t ht
      rw [← hte] at ha ⊢
      rw [effOut_inner hL masks ht (.inl rfl), hmt]
      exact sameSlice_eff hmt (hf.out t ht m hmt t.entry (.inl rfl) a ha)
    · push Not at hx
      left
      rw [hf.keys _ hx, effOut_other masks]
      rintro t ht (h1 | h1)
      · exact hx t ht h1
      · exact (hL.sep t ht s hs _ h1).2 rfl
  have hentryOut : ∀ s ∈ ss, ∀ a ∈ w s.entry,
      SameSlice a.shape a.outAx (masks s.entry) (effOut masks ss s.entry) := by
    intro s hs a ha
    obtain ⟨m, hms⟩ := hm s hs
    rw [effOut_inner hL masks hs (.inl rfl), hms]
    exact sameSlice_eff hms (hf.out s hs m hms s.entry (.inl rfl) a ha)
  have hentry : ∀ s ∈ ss, nodeParams (w s.entry) (inputMask ss masks nic s.entry) (masks s.entry)
      = f s.entry := by
    intro s hs
    simp only [f]
    rw [hw]
    exact nodeParams_slice (fun a ha => ⟨hf.axes _ a ha, hIn _ ⟨s, hs, rfl⟩ a ha, hentryOut s hs a ha⟩)
  have hinter : ∀ s ∈ ss, ∀ i ∈ s.inters, nodeParams (w i) (masks s.entry) (masks s.entry) = f i := by
    intro s hs i hi
    simp only [f]
    rw [hw]
    obtain ⟨m, hms⟩ := hm s hs
    refine nodeParams_slice (fun a ha => ⟨hf.axes _ a ha, .inr (.inl (hf.inter s hs i hi a ha)), ?_⟩)
    rw [effOut_inner hL masks hs (.inr hi), hms]
    exact sameSlice_eff hms (hf.out s hs m hms i (.inr hi) a ha)
  have hexit : ∀ s ∈ ss, nodeParams (w s.exit) (masks s.entry) (masks s.exit) = f s.exit := by
    intro s hs
    simp only [f]
    rw [hw]
    obtain ⟨m, hms⟩ := hm s hs
    refine nodeParams_slice (fun a ha => ⟨hf.axes _ a ha, ?_, hexitOut s hs a ha⟩)
    rw [effIn_exit hL masks hs, hms]
    exact sameSlice_eff hms (hf.inp s hs m hms a ha)
  have hrest : ∀ i, i ∉ ss.flatMap Section.nodes → nodeParams (w i) none none = f i := by
    intro i hi
    simp only [List.mem_flatMap, not_exists, not_and, Section.nodes, List.mem_cons, List.mem_append,
      List.not_mem_nil, or_false, not_or] at hi
    simp only [f]
    rw [hw, effIn_other masks (fun s hs h => (hi s hs).2.2 h.symm), effOut_other masks (by
      rintro s hs (h | h)
      · exact (hi s hs).1 h.symm
      · exact (hi s hs).2.1 h)]
    exact nodeParams_slice (fun a ha => ⟨hf.axes _ a ha, .inl rfl, .inl rfl⟩)
  have hc := count_once hL f
  have hG : ((List.range g.n).map f).sum = (graphParams g.n w' : ℤ) := by
    unfold graphParams
    have : ∀ l : List ℕ, (l.map f).sum
        = (((l.map fun i => ((w' i).map fun a => a.shape.prod).sum).sum : ℕ) : ℤ) := by
      intro l
      induction l with
      | nil => rfl
      | cons i l ih => simp only [List.map_cons, List.sum_cons, ih]; push_cast; rfl
    exact this _
  rw [← hG, ← hc]
  unfold estimate
  congr 1
  · congr 1
    · congr 1
      apply List.map_congr_left
      intro i hi
      simp only [List.mem_filter, Bool.not_eq_true', decide_eq_false_iff_not] at hi
      exact hrest i hi.2
    · congr 1
      apply List.map_congr_left
      intro s hs
      show nodeParams (w s.entry) _ _ + _ + nodeParams (w s.exit) _ _ = _
      rw [hentry s hs, hexit s hs]
      congr 2
      congr 1
      apply List.map_congr_left
      intro i hi
      exact hinter s hs i hi
  · congr 1
    apply List.map_congr_left
    intro i hi
    simp only [sharedNodes, List.mem_dedup, List.mem_filter, List.mem_map, decide_eq_true_eq] at hi
    obtain ⟨⟨s, hs, rfl⟩, _⟩ := hi
    exact hentry s hs

/-- **C62.** With any way of counting the parameters of a single layer (with or without padding), the
estimate is the sum over the layers of the graph, each counted once with the masks of its channels. -/
theorem C62_each_layer_once (g : PGraph) (hg : WellFormed g) {ss : List Section} (h : g.sections = some ss)
    (masks : ℕ → Option (List Bool)) (nic : ℕ → ℕ)
    (cnt : ℕ → Option (List Bool) → Option (List Bool) → ℤ) (inM outM : ℕ → Option (List Bool))
    (hM : NodeMasks ss masks nic inM outM) :
    estimate g.n ss masks nic cnt = ((List.range g.n).map fun i => cnt i (inM i) (outM i)).sum := by
  have hL := layout_of g hg.forward hg.bound hg.kinds h
  have hin : ∀ s ∈ ss, inputMask ss masks nic s.entry = inM s.entry := by
    intro s hs
    by_cases hx : ∃ t ∈ ss, t.exit = s.entry
    · obtain ⟨t, ht, he⟩ := hx
      rw [← he, inputMask_exit hL masks nic ht, hM.exitIn t ht]
    · push Not at hx
      rw [inputMask_other masks nic hx, hM.entryIn s hs hx]
  rw [← count_once hL fun i => cnt i (inM i) (outM i)]
  unfold estimate
  congr 1
  · congr 1
    · congr 1
      apply List.map_congr_left
      intro i hi
      simp only [List.mem_filter, Bool.not_eq_true', decide_eq_false_iff_not] at hi
      have := hM.rest i (fun s hs hc => hi.2 (List.mem_flatMap.2 ⟨s, hs, hc⟩))
      rw [this.1, this.2]
    · congr 1
      apply List.map_congr_left
      intro s hs
      rw [hin s hs, hM.entryOut s hs, hM.exitIn s hs, hM.exitOut s hs]
      congr 2
      congr 1
      apply List.map_congr_left
      intro i hi
      rw [(hM.inter s hs i hi).1, (hM.inter s hs i hi).2]
  · congr 1
    apply List.map_congr_left
    intro i hi
    simp only [sharedNodes, List.mem_dedup, List.mem_filter, List.mem_map, decide_eq_true_eq] at hi
    obtain ⟨⟨s, hs, rfl⟩, _⟩ := hi
    rw [hin s hs, hM.entryOut s hs]

/-- Weights of `exG`: two 3×3 convolutions `[3,3,in,out]` with bias, a batch normalization, a dense layer. -/
def exW : ℕ → List PAttr
  | 0 => [⟨[3, 3, 3, 4], some 3, some 2⟩, ⟨[4], some 0, none⟩]
  | 1 => [⟨[4], some 0, none⟩, ⟨[4], some 0, none⟩]
  | 2 => [⟨[3, 3, 4, 5], some 3, some 2⟩, ⟨[5], some 0, none⟩]
  | 3 => [⟨[5, 2], some 1, some 0⟩]
  | _ => []

def exMasks : ℕ → Option (List Bool)
  | 0 => some [true, false, true, true]
  | 2 => some [true, true, false, false, true]
  | _ => none

def exNic : ℕ → ℕ
  | 0 => 3
  | 2 => 4
  | 3 => 5
  | _ => 0

example : estimate exG.n [⟨0, [1], 2⟩, ⟨2, [], 3⟩] exMasks exNic (fun i => nodeParams (exW i)) = 180 := by
  decide +kernel
example : (buildPruned exW [⟨0, [1], 2⟩, ⟨2, [], 3⟩] exMasks).map (graphParams exG.n) = some 180 := by
  decide +kernel
/-- Padding to the SIMD size: 3 channels of 10 parameters with SIMD size 2 count as 4 channels. -/
example : paddedParams 30 3 2 = some 40 := by decide
example : Fits exG [⟨0, [1], 2⟩, ⟨2, [], 3⟩] exW exMasks exNic where
  keys := by
    intro i h
    have h0 := h ⟨0, [1], 2⟩ (by simp)
    have h2 := h ⟨2, [], 3⟩ (by simp)
    rcases i with _ | _ | _ | i <;> simp_all [exMasks]
  axes := by
    intro i
    rcases i with _ | _ | _ | _ | i <;> simp [exW]
  out := by
    intro s hs m hm i hi
    simp only [List.mem_cons, List.not_mem_nil, or_false] at hs
    rcases hs with rfl | rfl
    · simp only [exMasks, Option.some.injEq] at hm
      subst hm
      simp only [List.mem_cons, List.not_mem_nil, or_false] at hi
      rcases hi with rfl | rfl <;> simp [exW]
    · simp only [exMasks, Option.some.injEq] at hm
      subst hm
      simp only [List.not_mem_nil, or_false] at hi
      subst hi; simp [exW]
  inp := by
    intro s hs m hm
    simp only [List.mem_cons, List.not_mem_nil, or_false] at hs
    rcases hs with rfl | rfl <;> simp only [exMasks, Option.some.injEq] at hm <;> subst hm <;> simp [exW]
  inter := by
    intro s hs i hi
    simp only [List.mem_cons, List.not_mem_nil, or_false] at hs
    rcases hs with rfl | rfl
    · simp only [List.mem_singleton] at hi; subst hi; simp [exW]
    · simp at hi
  nic := by
    intro i
    rcases i with _ | _ | _ | _ | i <;> simp [exW, exNic]

def exInM : ℕ → Option (List Bool)
  | 0 => some [true, true, true]
  | 1 => exMasks 0
  | 2 => exMasks 0
  | 3 => exMasks 2
  | _ => none

def exOutM : ℕ → Option (List Bool)
  | 0 => exMasks 0
  | 1 => exMasks 0
  | 2 => exMasks 2
  | _ => none

example : NodeMasks [⟨0, [1], 2⟩, ⟨2, [], 3⟩] exMasks exNic exInM exOutM where
  entryOut := by decide
  entryIn := by decide
  inter := by decide
  exitIn := by decide
  exitOut := by decide
  rest := by
    intro i h
    have h0 := h ⟨0, [1], 2⟩ (by simp)
    have h2 := h ⟨2, [], 3⟩ (by simp)
    rcases i with _ | _ | _ | _ | i <;> simp_all [exInM, exOutM, Section.nodes]

/-! ### C63 -/

/-- **C63 (partial).** A layer that is neither the entry nor an intermediate layer of a section keeps its
output channels; so do all model outputs if none of them is inside a section. -/
theorem C63_outputs_partial (g : PGraph) (hg : WellFormed g) {ss : List Section} (h : g.sections = some ss)
    (w : ℕ → List PAttr) (masks : ℕ → Option (List Bool)) (nic : ℕ → ℕ) (hf : Fits g ss w masks nic)
    {w' : ℕ → List PAttr} (hb : buildPruned w ss masks = some w')
    (hout : ∀ i ∈ g.outputs, ∀ s ∈ ss, i ≠ s.entry ∧ i ∉ s.inters) :
    ∀ i ∈ g.outputs, outChannels (w' i) = outChannels (w i) := by
  intro i hi
  have hL := layout_of g hg.forward hg.bound hg.kinds h
  rw [buildPruned_spec masks ss w w' hL hf.axes hb i, effOut_other masks (by
    rintro s hs (h | h)
    · exact (hout i hi s hs).1 h.symm
    · exact (hout i hi s hs).2 h)]
  unfold outChannels sliceAttrs
  rw [List.map_map]
  apply List.map_congr_left
  intro a ha
  have hax := hf.axes i a ha
  simp only [Function.comp, pruneShape]
  cases ho : a.outAx with
  | none => rfl
  | some k =>
    simp only [Option.bind_some]
    cases hin : a.inAx with
    | none => cases effIn masks ss i <;> rfl
    | some j =>
      cases effIn masks ss i with
      | none => rfl
      | some m =>
        have : j ≠ k := by rintro rfl; exact hax j hin ho
        simp only
        rw [List.getElem?_set_ne this]

example : ∀ i ∈ exG.outputs, ∀ s ∈ [(⟨0, [1], 2⟩ : Section), ⟨2, [], 3⟩], i ≠ s.entry ∧ i ∉ s.inters := by
  decide

/-- The same graph with the first convolution as a second output of the model. -/
def exGout : PGraph := { exG with outputs := [0, 4] }

theorem exGout_wf : WellFormed exGout := ⟨exG_wf.forward, exG_wf.bound, exG_wf.kinds⟩

/-- **C63 is false of the code**: a layer that is an output of the model and has a single consumer still
starts a section, and the output loses channels. -/
theorem C63_output_channels_violated : WellFormed exGout ∧
    exGout.sections = some [⟨0, [1], 2⟩, ⟨2, [], 3⟩] ∧
    (buildPruned exW [⟨0, [1], 2⟩, ⟨2, [], 3⟩] exMasks).map (fun w' => exGout.outputs.map fun i => outChannels (w' i))
      = some [[some 3, some 3], []] ∧
    (exGout.outputs.map fun i => outChannels (exW i)) = [[some 4, some 4], []] :=
  ⟨exGout_wf, by decide +kernel, by decide +kernel, by decide +kernel⟩

/-! ### C43, C64 -/

theorem compress_eq_keptEntries {α : Type} : ∀ (mask : List Bool) (v : List α), v.length = mask.length →
    compress mask v = keptEntries mask v
  | [], v, h => by
    have : v = [] := List.eq_nil_of_length_eq_zero (by simpa using h)
    subst this; rfl
  | b :: m, [], h => by simp at h
  | b :: m, a :: v, h => by
    rw [compress_cons, compress_eq_keptEntries m v (by simpa using h)]
    cases b <;> simp [keptEntries]

/-- **C43 (Keras).** An intermediate layer keeps all its attributes, each sliced to the kept channels. -/
theorem C43_keras_partial {α : Type} (weights : Attrs α) (mask : List Bool)
    (h : ∀ kv ∈ weights, kv.2.length = mask.length) :
    Sliced mask weights (kerasPruneIntermediate weights mask) := by
  unfold Sliced kerasPruneIntermediate
  rw [List.forall₂_map_right_iff, List.forall₂_same]
  intro kv hkv
  exact ⟨rfl, compress_eq_keptEntries mask kv.2 (h kv hkv)⟩

/-- **C43 (both frameworks).** Kernel and bias of the entry layer and the kernel of the exit layer are
sliced to the kept channels; the bias of the exit layer is kept. -/
theorem C43_edges {κ B : Type} (mask : List Bool) (entry exit : Linear κ B)
    (hk : entry.kernel.length = mask.length) (hb : entry.bias.length = mask.length)
    (hx : ∀ row ∈ exit.kernel, row.length = mask.length) :
    (entry.pruneEntry mask).kernel = keptEntries mask entry.kernel ∧
    (entry.pruneEntry mask).bias = keptEntries mask entry.bias ∧
    (exit.pruneExit mask).kernel = exit.kernel.map (keptEntries mask) ∧
    (exit.pruneExit mask).bias = exit.bias := by
  refine ⟨compress_eq_keptEntries _ _ hk, compress_eq_keptEntries _ _ hb, ?_, rfl⟩
  unfold Linear.pruneExit
  apply List.map_congr_left
  intro row hr
  exact compress_eq_keptEntries _ _ (hx row hr)

/-- **C43 is false of the code for PyTorch**: an intermediate layer with weights loses all of them. -/
theorem C43_torch_violated {α : Type} (kind : InterKind) (weights : Attrs α) (mask : List Bool)
    (h : weights ≠ []) : ¬ Sliced mask weights (torchPruneIntermediate kind weights mask) := by
  have h0 : torchPruneIntermediate kind weights mask = [] := by
    unfold torchPruneIntermediate; simp
  rw [h0]
  intro hs
  unfold Sliced at hs
  cases weights with
  | nil => exact h rfl
  | cons a l => cases hs

example : kerasPruneIntermediate [("gamma", [1, 2, 3]), ("beta", [4, 5, 6])] [true, false, true]
    = [("gamma", [1, 3]), ("beta", [4, 6])] := by decide +kernel
example : torchPruneIntermediate .batchNorm [("gamma", [1, 2, 3])] [true, false, true] = [] := by decide +kernel

/-- **C64.** A pruned section computes what the original section computes when the pruned channels
contribute nothing to the exit layer. -/
theorem C64_section {κ α V : Type} [AddCommMonoid V] (act : κ → V → V) (s : SectionLayers κ α V)
    (mask : List Bool) (hk : s.entry.kernel.length = mask.length) (hb : s.entry.bias.length = mask.length)
    (hw : ∀ l ∈ s.inters, ∀ kv ∈ l.weights, kv.2.length = mask.length)
    (hx : ∀ row ∈ s.exit.kernel, row.length = mask.length) (x : List V) :
    (s.prune mask).eval act x = maskedExit act s.exit mask (s.hidden act x) := by
  have hz : (s.hidden act x).length = mask.length := by
    unfold SectionLayers.hidden
    rw [inters_length]; simp [Linear.eval, hk, hb]
  have h1 : (s.prune mask).eval act x = (s.exit.pruneExit mask).eval act ((s.prune mask).hidden act x) := rfl
  rw [h1, hidden_prune act s mask x hk hb hw]
  unfold Linear.pruneExit Linear.eval maskedExit
  simp only
  rw [List.zipWith_map_left]
  apply List.ext_getElem?
  intro j
  rw [List.getElem?_zipWith, List.getElem?_zipWith]
  cases hr : s.exit.kernel[j]? with
  | none => rfl
  | some row =>
    have hrow := hx row (List.mem_of_getElem? hr)
    cases s.exit.bias[j]? with
    | none => rfl
    | some b =>
      simp only [Option.some.injEq]
      rw [compress_zipWith act mask row _ hrow hz, sum_compress _ _ (by simp [hrow, hz])]

/-- Two channels, one pruned; a channel-wise scaling between two dense layers. -/
def exS : SectionLayers ℤ ℤ ℤ where
  entry := ⟨[[1, 2], [3, 4], [5, 6]], [1, 1, 1]⟩
  inters := [⟨fun a v => (((a.head?.bind Prod.snd).getD 0) * v), [("gamma", [2, 3, 4])]⟩]
  exit := ⟨[[1, 10, 100]], [7]⟩

example : exS.eval (· * ·) [1, 1] = [7 + 8 + 240 + 4800] := by decide +kernel
example : (exS.prune [true, false, true]).eval (· * ·) [1, 1] = [7 + 8 + 4800] := by decide +kernel

end MCT.Pruning
