/-
C149: the candidates of the layers of a prepared model.

Sources (under /repo/model_compression_toolkit):
  core/graph_prep_runner.py                                        get_finalized_graph 134-175
  core/common/quantization/set_node_quantization_config.py         set_manual_bitwidth_config
  core/common/quantization/filter_nodes_candidates.py              filter_nodes_candidates
  core/common/mixed_precision/bit_width_setter.py 73-78
-/
import Verif.Candidates.Manual
import Verif.Candidates.Filtered

namespace MCT.CandSpec
open MCT.Py MCT.Tpc MCT.Cand

/-- The base settings of a layer and its candidates have the same weights, and the same of them are quantized. -/
def Agree (c : NodeCfg) : Prop :=
  c.cands ≠ [] ∧ c.base.weights.named.keys.Nodup ∧ c.base.weights.positional.keys.Nodup ∧
  ∀ x ∈ c.cands, x.weights.named.keys = c.base.weights.named.keys ∧
    x.weights.positional.keys = c.base.weights.positional.keys ∧
    (∀ a, (x.weights.named.get a).map (·.enabled) = (c.base.weights.named.get a).map (·.enabled)) ∧
    ∀ i, (x.weights.positional.get i).map (·.enabled) = (c.base.weights.positional.get i).map (·.enabled)

end MCT.CandSpec

namespace MCT.Cand
open MCT.Py MCT.Tpc MCT.CandSpec

set_option linter.unusedSectionVars false
set_option linter.unusedVariables false

/-! ### Model -/

/-- One layer: without mixed precision its only candidate is the base configuration (graph_prep_runner.py 156-158), then
the candidates are filtered (graph_prep_runner.py 172, filter_nodes_candidates.py 24-38). The channel equalization
between the two and the copying of the general options leave the fields of `Cnd` as they are. -/
def prepareNode (kernel : Option Name) (mp : Bool) (c : NodeCfg) : Option NodeCfg :=
  (filterCands kernel (if mp then c.cands else [c.base])).map fun cs => ⟨c.base, cs⟩

/-- All layers, after the manual choices (graph_prep_runner.py 138-172). -/
def prepareAll (kernelOf : Nat → Option Name) (mp : Bool) (cfgs : Dict Nat NodeCfg) : Option (Dict Nat NodeCfg) :=
  cfgs.mapM fun p => (prepareNode (kernelOf p.1) mp p.2).map fun c => (p.1, c)

/-- `get_finalized_graph` from the settings of the platform on (graph_prep_runner.py 134-172); no manual choices are
empty lists. -/
def finalize (kernelOf : Nat → Option Name) (mp : Bool) (attrsOf : Nat → List Attr) (nodes : List Nat)
    (acts : List ActSel) (ws : List WSel) (cfgs : Dict Nat NodeCfg) : Option (Dict Nat NodeCfg) :=
  (setManual attrsOf nodes acts ws cfgs).bind (prepareAll kernelOf mp)

/-! ### The base configuration -/

theorem keys_map_if (l : Dict Name WAttr) (f : Name → WAttr → WAttr) :
    Dict.keys (l.map fun q => (q.1, f q.1 q.2)) = l.keys := Dict.keys_map_values f l

theorem map_at_eq (l : Dict Name WAttr) (a : Name) (b : Nat) :
    (l.map fun q => if q.1 = a then (q.1, { q.2 with nBits := b }) else q) =
      l.map fun q => (q.1, if q.1 = a then { q.2 with nBits := b } else q.2) := by
  refine List.map_congr_left fun q _ => ?_
  split_ifs <;> rfl

theorem setBaseBits_named {w w' : WCfg} {a : Name} {b : Nat} (ha : a ≠ posAttr) (hk : a ∈ w.named.keys)
    (h : setBaseBits w a b = some w') :
    w' = { w with named := w.named.map fun q => (q.1, if q.1 = a then { q.2 with nBits := b } else q.2) } := by
  unfold setBaseBits at h
  rw [if_neg ha] at h
  obtain ⟨p, hp, hpa⟩ := List.mem_map.mp hk
  have hf : p ∈ w.named.filter (fun p => hasSub p.1 a) :=
    List.mem_filter.mpr ⟨hp, (hasSub_iff _ _).mpr (by rw [hpa])⟩
  split at h
  · cases h
  · rename_i q hq
    rw [hq, List.mem_singleton] at hf
    rw [Option.some.injEq] at h
    rw [← h, ← hf, hpa, map_at_eq]
  · rw [if_pos hk, Option.some.injEq] at h
    rw [← h, map_at_eq]

/-- The bits a dictionary of choices gives to an attribute that had `n`. -/
theorem setAllBits_result {d : Dict Name Nat} {w w' : WCfg} (hd : d.keys.Nodup)
    (hk : ∀ a ∈ d.keys, a ≠ posAttr → a ∈ w.named.keys) (h : setAllBits d w = some w') :
    w'.simd = w.simd ∧ w'.named.keys = w.named.keys ∧ w'.positional.keys = w.positional.keys ∧
    (∀ a, a ≠ posAttr → w'.named.get a = (w.named.get a).map fun v => { v with nBits := (d.get a).getD v.nBits }) ∧
    (∀ i, w'.positional.get i =
      (w.positional.get i).map fun v => { v with nBits := (d.get posAttr).getD v.nBits }) := by
  induction d generalizing w with
  | nil =>
    simp only [setAllBits, Option.some.injEq] at h
    subst h
    refine ⟨rfl, rfl, rfl, fun a _ => ?_, fun i => ?_⟩ <;> simp [Dict.get_nil]
  | cons p d ih =>
    obtain ⟨a, b⟩ := p
    have hd' : a ∉ Dict.keys d ∧ (Dict.keys d).Nodup := by
      simpa [Dict.keys] using List.nodup_cons.mp (show (a :: Dict.keys d).Nodup from hd)
    simp only [setAllBits] at h
    cases hs : setBaseBits w a b with
    | none => rw [hs] at h; cases h
    | some w1 =>
      rw [hs] at h
      simp only at h
      have hnone : Dict.get d a = none := (Dict.get_none_iff _ _).mpr hd'.1
      by_cases ha : a = posAttr
      · have hw1 : w1 = { w with positional := w.positional.map (fun p => (p.1, { p.2 with nBits := b })) } := by
          unfold setBaseBits at hs
          rw [if_pos ha, Option.some.injEq] at hs
          exact hs.symm
        obtain ⟨h1, h2, h3, h4, h5⟩ := ih (w := w1) hd'.2 (fun x hx hne => by
          rw [hw1]; exact hk x (List.mem_cons_of_mem _ hx) hne) h
        rw [hw1] at h1 h2 h3 h4 h5
        refine ⟨h1, h2, h3.trans (Dict.keys_map_values (fun _ (v : WAttr) => { v with nBits := b }) _), fun x hx => ?_,
          fun i => ?_⟩
        · rw [h4 x hx, Dict.get_cons, if_neg (fun e => hx (e.symm.trans ha))]
        · rw [h5 i, Dict.get_cons, if_pos ha]
          have := Dict.get_map_values (fun _ v => ({ v with nBits := b } : WAttr)) w.positional i
          simp only [this]
          cases Dict.get w.positional i with
          | none => rfl
          | some v =>
            rw [ha] at hnone
            simp [hnone]
      · have hw1 := setBaseBits_named ha (hk a (by simp [Dict.keys]) ha) hs
        have hkeys : w1.named.keys = w.named.keys := by
          rw [hw1]; exact Dict.keys_map_values (fun x (v : WAttr) => if x = a then { v with nBits := b } else v) _
        obtain ⟨h1, h2, h3, h4, h5⟩ := ih (w := w1) hd'.2 (fun x hx hne => by
          rw [hkeys]; exact hk x (List.mem_cons_of_mem _ hx) hne) h
        refine ⟨h1.trans (by rw [hw1]), h2.trans hkeys, h3.trans (by rw [hw1]), fun x hx => ?_, fun i => ?_⟩
        · rw [h4 x hx, hw1]
          have := Dict.get_map_values (fun x v => (if x = a then { v with nBits := b } else v : WAttr)) w.named x
          simp only [this]
          rw [Dict.get_cons]
          by_cases hxa : a = x
          · subst hxa
            cases Dict.get w.named a with
            | none => rfl
            | some v => simp [hnone]
          · simp only [if_neg hxa, if_neg (fun e : x = a => hxa e.symm)]
            cases Dict.get w.named x <;> rfl
        · rw [h5 i, Dict.get_cons, if_neg ha, hw1]

/-- After a manual choice of weights, the base configuration has the chosen bits too. -/
theorem manualWeights_base {c c' : NodeCfg} {d : Dict Name Nat} (hag : Agree c) (hd : d.keys.Nodup)
    (h : manualWeights c d = some c') :
    (∀ a b, (a, b) ∈ d → HasBits c'.base a b) ∧ c'.base.weights.named.keys = c.base.weights.named.keys := by
  obtain ⟨hne, hbn, hbp, hx⟩ := hag
  have hn : ∀ x ∈ c.cands, x.weights.named.keys.Nodup := fun x hxc => (hx x hxc).1 ▸ hbn
  obtain ⟨g1, g2, g3⟩ := manualWeights_result hn h
  obtain ⟨x, hxm⟩ := List.exists_mem_of_ne_nil _ g2
  obtain ⟨hxc, hbits⟩ := (g1 x).mp hxm
  obtain ⟨x1, x2, x3, x4⟩ := hx x hxc
  unfold manualWeights at h
  cases hm : manualCands d c.cands with
  | none => rw [hm] at h; cases h
  | some l =>
  rw [hm] at h
  cases l with
  | nil => cases h
  | cons y ys =>
  obtain ⟨w, hw, rfl⟩ := Option.map_eq_some_iff.mp h
  have hnamed : ∀ a b, (a, b) ∈ d → a ≠ posAttr → ∃ v, x.weights.named.get a = some v ∧ v.enabled = true := by
    intro a b hab ha
    have := hbits a b hab
    unfold HasBits at this
    rw [if_neg ha] at this
    obtain ⟨v, hv, he, -⟩ := this
    exact ⟨v, Dict.get_of_mem (hn x hxc) hv, he⟩
  have hkey : ∀ a ∈ d.keys, a ≠ posAttr → a ∈ c.base.weights.named.keys := by
    intro a ha hne'
    obtain ⟨p, hp, rfl⟩ := List.mem_map.mp ha
    obtain ⟨v, hv, -⟩ := hnamed p.1 p.2 hp hne'
    rw [← x1]
    exact List.mem_map.mpr ⟨_, Dict.get_some_mem hv, rfl⟩
  obtain ⟨r1, r2, r3, r4, r5⟩ := setAllBits_result hd hkey hw
  refine ⟨fun a b hab => ?_, r2⟩
  have hget : d.get a = some b := Dict.get_of_mem hd hab
  unfold HasBits
  split_ifs with ha
  · have := hbits a b hab
    unfold HasBits at this
    rw [if_pos ha] at this
    refine ⟨fun he => this.1 ?_, fun p hp => ?_⟩
    · have : w.positional.keys = [] := by rw [show w.positional = [] from he]; rfl
      rw [r3, ← x2] at this
      exact List.map_eq_nil_iff.mp this
    · have hp' : w.positional.get p.1 = some p.2 := Dict.get_of_mem (by rw [r3]; exact hbp) hp
      rw [r5] at hp'
      obtain ⟨v, hv, hv'⟩ := Option.map_eq_some_iff.mp hp'
      have he := x4 p.1
      rw [hv] at he
      obtain ⟨u, hu, hu'⟩ := Option.map_eq_some_iff.mp he
      have := (this.2 _ (Dict.get_some_mem hu)).1
      rw [← ha, hget] at hv'
      rw [← hv']
      exact ⟨by simpa [hu'] using this, rfl⟩
  · obtain ⟨u, hu, hue⟩ := hnamed a b hab ha
    have he := x3 a
    rw [hu] at he
    obtain ⟨v, hv, hv'⟩ := Option.map_eq_some_iff.mp he.symm
    refine ⟨{ v with nBits := b }, Dict.get_some_mem ?_, ?_, rfl⟩
    · show w.named.get a = _
      rw [r4 a ha, hv, hget]; rfl
    · exact hv'.trans hue

/-! ### What filtering keeps -/

/-- Bits chosen for a weight of all candidates are those of the candidates that are kept. -/
theorem filterCands_bits {kernel : Option Name} {cs ds : List Cnd} (h : filterCands kernel cs = some ds)
    (hs : SameAttrs cs) {a : Name} {b : Nat} (hb : ∀ x ∈ cs, HasBits x a b) : ∀ d ∈ ds, HasBits d a b := by
  intro d hd
  obtain ⟨c, hc, h1, h2, h3, h4⟩ := C52_only_unquantized kernel cs ds h d hd
  have hcb := hb c hc
  unfold HasBits at hcb ⊢
  split_ifs at hcb ⊢ with ha
  · rw [h3]; exact hcb
  · rcases h4 with h4 | ⟨hnq, k, hk, key, w, k1, k2, k3, k4, k5, k6, k7⟩
    · rw [h4]; exact hcb
    · obtain ⟨v, hv, he, hvb⟩ := hcb
      by_cases hak : a = key
      · exfalso
        refine hnq ⟨k, hk, fun x hx => ?_⟩
        have hxb := hb x hx
        unfold HasBits at hxb
        rw [if_neg ha] at hxb
        obtain ⟨u, hu, hue, -⟩ := hxb
        refine ⟨u, ?_, hue⟩
        rw [k2 x.weights ((hs x hx).2 c hc), ← hak]
        exact Dict.get_of_mem (hs x hx).1 hu
      · refine ⟨v, Dict.get_some_mem ?_, he, hvb⟩
        rw [k7 a hak]
        exact Dict.get_of_mem (hs c hc).1 hv

/-- Bits chosen for a quantized output are those of the candidates that are kept. -/
theorem filterCands_act {kernel : Option Name} {cs ds : List Cnd} (h : filterCands kernel cs = some ds)
    {b : Nat} (hb : ∀ x ∈ cs, x.act.mode = .quant ∧ x.act.nBits = b) : ∀ d ∈ ds, d.act.nBits = b := by
  intro d hd
  obtain ⟨c, hc, h1, -⟩ := C52_only_unquantized kernel cs ds h d hd
  rcases h1 with h1 | ⟨h1, -⟩
  · rw [h1]; exact (hb c hc).2
  · rw [(hb c hc).1] at h1; cases h1

theorem filterDups_one {kernel : Option Name} {c : Cnd} {ds : List Cnd} (h : filterDups kernel [c] [] = some ds) :
    ds = [c] := by
  simp only [filterDups] at h
  split at h
  · cases h
  · simpa using h.symm

/-- One candidate stays one. -/
theorem filterCands_one {kernel : Option Name} {c : Cnd} {ds : List Cnd} (h : filterCands kernel [c] = some ds) :
    ∃ d, ds = [d] := by
  unfold filterCands at h
  split at h
  · cases h
  · rename_i nk hnk
    have hm : modeOf [c] = some c.act.mode := by simp [modeOf]
    rw [hm] at h
    simp only at h
    split_ifs at h
    · obtain ⟨d, -, rfl⟩ := Option.map_eq_some_iff.mp h
      exact ⟨d, rfl⟩
    · exact ⟨_, filterDups_one (by simpa [dedupBy] using h)⟩
    · exact ⟨_, filterDups_one (by simpa [dedupBy] using h)⟩
    · cases hf : floatKernel kernel c with
      | none => rw [show dedupBy (fun x y : Cnd => x.act.same y.act) [c] [] = [c] from rfl] at h; simp [floatKernels, hf] at h
      | some d =>
        rw [show dedupBy (fun x y : Cnd => x.act.same y.act) [c] [] = [c] from rfl] at h
        simp only [floatKernels, hf, Option.map_some] at h
        exact ⟨_, filterDups_one h⟩
    · simp only [Option.some.injEq] at h
      exact ⟨c, h.symm⟩

/-! ### One layer through the manual choices -/

/-- The two manual choices of one layer. -/
theorem setManual_node {attrsOf : Nat → List Attr} {nodes : List Nat} {acts : List ActSel} {ws : List WSel}
    {cfgs cfgs' : Dict Nat NodeCfg} (h : setManual attrsOf nodes acts ws cfgs = some cfgs') {n : Nat}
    (hn : n ∈ nodes) {c : NodeCfg} (hc : cfgs.get n = some c) :
    ∃ c1 c2, cfgs'.get n = some c2 ∧
      ((c1 = c ∧ ∀ s ∈ acts, s.filter n = false) ∨
        ∃ s, LastWith (fun s : ActSel => s.filter n = true) acts s ∧ manualAct c s.bits = some c1) ∧
      ((c2 = c1 ∧ ∀ s ∈ ws, s.filter n = false) ∨
        ∃ d : Dict Name Nat, manualWeights c1 d = some c2 ∧ d.keys.Nodup ∧
          ∀ a s, LastWith (fun s : WSel => s.filter n = true ∧ s.attr = a) ws s → (a, s.bits) ∈ d) := by
  unfold setManual at h
  cases ham : actMapping nodes acts [] with
  | none => rw [ham] at h; cases h
  | some am =>
  rw [ham] at h
  simp only at h
  cases hwm : wMapping attrsOf nodes ws [] with
  | none => rw [hwm] at h; cases h
  | some wm =>
  rw [hwm] at h
  simp only at h
  cases h1 : applyActs am cfgs with
  | none => rw [h1] at h; cases h
  | some cfgs1 =>
  rw [h1] at h
  simp only at h
  obtain ⟨amn, _⟩ := actMapping_get (by simp [Dict.keys]) ham
  have amg := (C51_last_selection nodes acts).1 am ham
  obtain ⟨⟨wmn, wen⟩, wlast, wnone⟩ := wMapping_get (d0 := [])
    ⟨by simp [Dict.keys], by intro n e he; simp [Dict.get_nil] at he⟩ hwm
  obtain ⟨a0, a1⟩ := applyActs_get amn h1 n
  obtain ⟨w0, w1⟩ := applyWs_get wmn h n
  obtain ⟨c1, hc1, hact⟩ : ∃ c1, cfgs1.get n = some c1 ∧ ((c1 = c ∧ ∀ s ∈ acts, s.filter n = false) ∨
        ∃ s, LastWith (fun s : ActSel => s.filter n = true) acts s ∧ manualAct c s.bits = some c1) := by
    cases hg : am.get n with
    | none =>
      refine ⟨c, (a0 hg).trans hc, Or.inl ⟨rfl, fun s hs => ?_⟩⟩
      by_contra hf
      obtain ⟨t, ht⟩ := (lastWith_exists (fun s : ActSel => s.filter n = true) acts).mpr ⟨s, hs, by simpa using hf⟩
      have := (amg n t.bits).mpr ⟨hn, t, ht, rfl⟩
      rw [hg] at this; cases this
    | some b =>
      obtain ⟨c0, c1, f1, f2, f3⟩ := a1 b hg
      rw [hc, Option.some.injEq] at f1
      subst f1
      obtain ⟨_, s, hs, hb⟩ := (amg n b).mp hg
      exact ⟨c1, f3, Or.inr ⟨s, hs, by rw [hb]; exact f2⟩⟩
  cases hg : wm.get n with
  | none =>
    refine ⟨c1, c1, (w0 hg).trans hc1, hact, Or.inl ⟨rfl, fun s hs => ?_⟩⟩
    by_contra hf
    obtain ⟨t, ht⟩ := (lastWith_exists (fun t : WSel => t.filter n = true ∧ t.attr = s.attr) ws).mpr
      ⟨s, hs, by simpa using hf, rfl⟩
    have := wlast n hn s.attr t ht
    unfold recorded at this
    rw [hg] at this; cases this
  | some e =>
    obtain ⟨c0, c2, f1, f2, f3⟩ := w1 e hg
    rw [hc1, Option.some.injEq] at f1
    subst f1
    refine ⟨_, c2, f3, hact, Or.inr ⟨e, f2, wen n e hg, fun a s hs => ?_⟩⟩
    have := wlast n hn a s hs
    unfold recorded at this
    rw [hg, Option.bind_some] at this
    exact Dict.get_some_mem this

theorem prepareAll_get {kernelOf : Nat → Option Name} {mp : Bool} {cfgs out : Dict Nat NodeCfg}
    (h : prepareAll kernelOf mp cfgs = some out) (n : Nat) :
    out.get n = (cfgs.get n).bind (prepareNode (kernelOf n) mp) := by
  unfold prepareAll at h
  induction cfgs generalizing out with
  | nil => simp at h; subst h; rfl
  | cons p cfgs ih =>
    rw [List.mapM_cons] at h
    simp only [Option.bind_eq_bind, Option.pure_def, Option.bind_eq_some_iff, Option.map_eq_some_iff,
      Option.some.injEq] at h
    obtain ⟨q, ⟨c, hc, rfl⟩, rest, hr, rfl⟩ := h
    rw [Dict.get_cons, Dict.get_cons, ih hr]
    split_ifs with hp
    · simp only at hp
      rw [← hp, Option.bind_some, hc]
    · rfl

theorem prepareAll_mem {kernelOf : Nat → Option Name} {mp : Bool} {cfgs out : Dict Nat NodeCfg}
    (h : prepareAll kernelOf mp cfgs = some out) {p : Nat × NodeCfg} (hp : p ∈ cfgs) :
    ∃ c, prepareNode (kernelOf p.1) mp p.2 = some c := by
  unfold prepareAll at h
  induction cfgs generalizing out with
  | nil => cases hp
  | cons q cfgs ih =>
    rw [List.mapM_cons] at h
    simp only [Option.bind_eq_bind, Option.pure_def, Option.bind_eq_some_iff, Option.map_eq_some_iff,
      Option.some.injEq] at h
    obtain ⟨r, ⟨c, hc, rfl⟩, rest, hr, rfl⟩ := h
    rcases List.mem_cons.mp hp with rfl | hp
    · exact ⟨c, hc⟩
    · exact ih hr hp

theorem lastWith_unique {σ : Type} {m : σ → Prop} {l : List σ} {s t : σ} (hs : LastWith m l s)
    (ht : LastWith m l t) : s = t := by
  induction l with
  | nil => obtain ⟨pre, post, e, -⟩ := hs; simp at e
  | cons x l ih =>
    rcases (lastWith_cons m x l s).mp hs with hs | ⟨rfl, -, hno⟩ <;>
      rcases (lastWith_cons m x l t).mp ht with ht | ⟨rfl, -, hno'⟩
    · exact ih hs ht
    · obtain ⟨pre, post, e, hm, -⟩ := hs
      exact absurd hm (hno' s (by rw [e]; simp))
    · obtain ⟨pre, post, e, hm, -⟩ := ht
      exact absurd hm (hno t (by rw [e]; simp))
    · rfl

theorem agree_act {c c1 : NodeCfg} {b : Nat} (hag : Agree c) (h : manualAct c b = some c1) : Agree c1 := by
  obtain ⟨g1, g2, g3⟩ := manualAct_result h
  obtain ⟨hne, h1, h2, h3⟩ := hag
  refine ⟨g2, by rw [g3]; exact h1, by rw [g3]; exact h2, fun x hx => ?_⟩
  rw [g1, List.mem_filter] at hx
  rw [g3]
  exact h3 x hx.1

/-! ### Theorems -/

/-- **C149 (the chosen bits are those of the prepared model)**: when the preparation succeeds, every layer has
candidates left, exactly one without mixed precision, and all of them have the bits of the last choice for the output of
the layer and of the last choice for each of its weights. -/
theorem C149_chosen (kernelOf : Nat → Option Name) (mp : Bool) (attrsOf : Nat → List Attr) (nodes : List Nat)
    (acts : List ActSel) (ws : List WSel) (cfgs out : Dict Nat NodeCfg)
    (h : finalize kernelOf mp attrsOf nodes acts ws cfgs = some out) (n : Nat) (hn : n ∈ nodes) (c : NodeCfg)
    (hc : cfgs.get n = some c) (hag : Agree c) :
    ∃ c', out.get n = some c' ∧ c'.cands ≠ [] ∧ (mp = false → ∃ x, c'.cands = [x]) ∧
      ∀ x ∈ c'.cands,
        (∀ s, LastWith (fun s : ActSel => s.filter n = true) acts s → x.act.nBits = s.bits) ∧
        (∀ a s, LastWith (fun s : WSel => s.filter n = true ∧ s.attr = a) ws s → HasBits x a s.bits) := by
  unfold finalize at h
  obtain ⟨cfgs', hm, hp⟩ := Option.bind_eq_some_iff.mp h
  obtain ⟨c1, c2, hc2, hact, hw⟩ := setManual_node hm hn hc
  have hget := prepareAll_get hp n
  rw [hc2, Option.bind_some] at hget
  -- the preparation of this layer did not raise
  obtain ⟨c', hc'⟩ := prepareAll_mem hp (Dict.get_some_mem hc2)
  simp only at hc'
  rw [hc'] at hget
  unfold prepareNode at hc'
  obtain ⟨ds, hds, rfl⟩ := Option.map_eq_some_iff.mp hc'
  -- the settings after the choice of the output
  have hag1 : Agree c1 := by
    rcases hact with ⟨rfl, -⟩ | ⟨s, -, hs⟩
    · exact hag
    · exact agree_act hag hs
  have hq1 : ∀ s, LastWith (fun s : ActSel => s.filter n = true) acts s →
      ∀ x ∈ c1.base :: c1.cands, x.act.mode = .quant ∧ x.act.nBits = s.bits := by
    intro s hs
    rcases hact with ⟨-, hno⟩ | ⟨t, ht, hta⟩
    · obtain ⟨pre, post, e, hm, -⟩ := hs
      rw [hno s (by rw [e]; simp)] at hm; cases hm
    · have hst : t = s := lastWith_unique ht hs
      subst hst
      have hmode := (((C51_activation c t.bits).2).mp ⟨c1, hta⟩).1
      obtain ⟨g1, g2, g3⟩ := manualAct_result hta
      intro x hx
      rcases List.mem_cons.mp hx with rfl | hx
      · rw [g3]; exact ⟨hmode c.base List.mem_cons_self, rfl⟩
      · rw [g1, List.mem_filter, decide_eq_true_iff] at hx
        exact ⟨hmode x (List.mem_cons_of_mem _ hx.1), hx.2⟩
  -- the settings after the choice of the weights
  have h1n : ∀ x ∈ c1.cands, x.weights.named.keys.Nodup := fun x hx => (hag1.2.2.2 x hx).1 ▸ hag1.2.1
  have key : c2.cands ≠ [] ∧ (∀ x ∈ c2.cands, x ∈ c1.cands) ∧ c2.base.act = c1.base.act ∧
      c2.base.weights.named.keys = c1.base.weights.named.keys ∧
      ∀ a s, LastWith (fun s : WSel => s.filter n = true ∧ s.attr = a) ws s →
        ∀ x ∈ c2.base :: c2.cands, HasBits x a s.bits := by
    rcases hw with ⟨rfl, hno⟩ | ⟨d, hd, hdn, hlast⟩
    · refine ⟨hag1.1, fun x hx => hx, rfl, rfl, fun a s hs => ?_⟩
      obtain ⟨pre, post, e, hm, -⟩ := hs
      rw [hno s (by rw [e]; simp)] at hm; exact absurd hm.1 (by simp)
    · obtain ⟨g1, g2, g3⟩ := manualWeights_result h1n hd
      obtain ⟨b1, b2⟩ := manualWeights_base hag1 hdn hd
      refine ⟨g2, fun x hx => ((g1 x).mp hx).1, g3, b2, fun a s hs x hx => ?_⟩
      rcases List.mem_cons.mp hx with rfl | hx
      · exact b1 a s.bits (hlast a s hs)
      · exact ((g1 x).mp hx).2 a s.bits (hlast a s hs)
  obtain ⟨k1, k2, k3, k4, k5⟩ := key
  have hsame : SameAttrs (if mp then c2.cands else [c2.base]) := by
    cases mp
    · intro x hx
      simp only [Bool.false_eq_true, if_false, List.mem_singleton] at hx ⊢
      subst hx
      exact ⟨by rw [k4]; exact hag1.2.1, fun d hd => by rw [hd]⟩
    · intro x hx
      simp only [if_true] at hx ⊢
      exact ⟨h1n x (k2 x hx), fun d hd => by
        rw [(hag1.2.2.2 x (k2 x hx)).1, (hag1.2.2.2 d (k2 d hd)).1]⟩
  have hin : ∀ x ∈ (if mp then c2.cands else [c2.base]), x ∈ c2.base :: c2.cands := by
    intro x hx
    cases mp
    · simp only [Bool.false_eq_true, if_false, List.mem_singleton] at hx
      rw [hx]; exact List.mem_cons_self
    · exact List.mem_cons_of_mem _ hx
  refine ⟨_, hget, (C52_nonempty _ _ _ hsame hds).1, ?_, fun x hx => ⟨fun s hs => ?_, fun a s hs => ?_⟩⟩
  · rintro rfl
    exact filterCands_one hds
  · refine filterCands_act hds (fun y hy => ?_) x hx
    rcases List.mem_cons.mp (hin y hy) with rfl | hy
    · rw [k3]; exact hq1 s hs c1.base List.mem_cons_self
    · exact hq1 s hs y (List.mem_cons_of_mem _ (k2 y hy))
  · exact filterCands_bits hds hsame (fun y hy => k5 a s hs y (hin y hy)) x hx

/-- **C149 (without choices, the base settings)**: without mixed precision and manual choices a layer is left with the
base settings of the platform, in which only the settings of an output or a kernel that are not quantized are changed. -/
theorem C149_base (kernelOf : Nat → Option Name) (attrsOf : Nat → List Attr) (nodes : List Nat)
    (cfgs out : Dict Nat NodeCfg) (h : finalize kernelOf false attrsOf nodes [] [] cfgs = some out) (n : Nat)
    (c : NodeCfg) (hc : cfgs.get n = some c) :
    ∃ x, out.get n = some ⟨c.base, [x]⟩ ∧ Unquantized (kernelOf n) [c.base] c.base x := by
  unfold finalize at h
  obtain ⟨cfgs', hm, hp⟩ := Option.bind_eq_some_iff.mp h
  have hm' : cfgs' = cfgs := by
    simpa [setManual, actMapping, wMapping, applyActs, applyWs] using hm.symm
  subst hm'
  have hget := prepareAll_get hp n
  rw [hc, Option.bind_some] at hget
  obtain ⟨c', hc'⟩ := prepareAll_mem hp (Dict.get_some_mem hc)
  simp only at hc'
  rw [hc'] at hget
  unfold prepareNode at hc'
  obtain ⟨ds, hds, rfl⟩ := Option.map_eq_some_iff.mp hc'
  simp only [Bool.false_eq_true, if_false] at hds
  obtain ⟨x, rfl⟩ := filterCands_one hds
  obtain ⟨d, hd, hu⟩ := C52_only_unquantized _ _ _ hds x List.mem_cons_self
  rw [List.mem_singleton] at hd
  subst hd
  exact ⟨x, hget, hu⟩

/-! ### Loaded settings agree -/

theorem addAttrs_keys {op1 op2 : OpCfg Name} {as : List Attr} {w1 w2 v1 v2 : WCfg}
    (h1 : addAttrs op1 as w1 = some v1) (h2 : addAttrs op2 as w2 = some v2)
    (hn : w1.named.keys = w2.named.keys) (hp : w1.positional.keys = w2.positional.keys)
    (hnd : w1.named.keys.Nodup) (hpd : w1.positional.keys.Nodup) :
    v1.named.keys = v2.named.keys ∧ v1.positional.keys = v2.positional.keys ∧ v1.named.keys.Nodup ∧
      v1.positional.keys.Nodup := by
  induction as generalizing w1 w2 with
  | nil =>
    simp only [addAttrs, Option.some.injEq] at h1 h2
    subst h1; subst h2
    exact ⟨hn, hp, hnd, hpd⟩
  | cons a as ih =>
    simp only [addAttrs] at h1 h2
    cases hc1 : attrCfgOf op1 a with
    | none => rw [hc1] at h1; cases h1
    | some c1 =>
    cases hc2 : attrCfgOf op2 a with
    | none => rw [hc2] at h2; cases h2
    | some c2 =>
    rw [hc1] at h1
    rw [hc2] at h2
    cases a with
    | pos i =>
      refine ih h1 h2 hn ?_ hnd (Dict.nodup_set _ _ hpd)
      simp only [Dict.keys_set, hp]
    | named s =>
      refine ih h1 h2 ?_ hp (Dict.nodup_set _ _ hnd) hpd
      simp only [Dict.keys_set, hn]
      congr

theorem mkCnd_weights {op : OpCfg Name} {attrs : List Attr} {x : Cnd} (h : mkCnd op attrs = some x) :
    addAttrs op attrs ⟨op.simd, [], []⟩ = some x.weights := by
  unfold mkCnd at h
  split at h
  · cases h
  · split at h
    · cases h
    · split at h
      · cases h
      · rename_i w hw
        rw [Option.some.injEq] at h
        subst h
        exact hw

theorem dictSame_get {κ α : Type} [DecidableEq κ] [DecidableEq α] {d e : Dict κ α} (h : dictSame d e = true) (k : κ) :
    d.get k = e.get k := by
  unfold dictSame at h
  rw [Bool.and_eq_true, List.all_eq_true, List.all_eq_true] at h
  by_cases hd : k ∈ d.keys
  · simpa using h.1 k hd
  · by_cases he : k ∈ e.keys
    · simpa using h.2 k he
    · rw [(Dict.get_none_iff _ _).mpr hd, (Dict.get_none_iff _ _).mpr he]

theorem getAttr_named {w : WCfg} (hn : w.named.keys.Nodup) {a : Name} (ha : a ∈ w.named.keys) :
    w.getAttr (.named a) = w.named.get a := by
  obtain ⟨v, hv⟩ : ∃ v, w.named.get a = some v := by
    cases hg : w.named.get a with
    | none => exact absurd ha ((Dict.get_none_iff _ _).mp hg)
    | some v => exact ⟨v, rfl⟩
  have hm : (a, v) ∈ w.named.filter (fun p => hasSub p.1 a) :=
    List.mem_filter.mpr ⟨Dict.get_some_mem hv, (hasSub_iff _ _).mpr (List.infix_refl _)⟩
  unfold WCfg.getAttr
  simp only
  split
  · rename_i h; rw [h] at hm; cases hm
  · rename_i p h
    rw [h, List.mem_singleton] at hm
    rw [hv, ← hm]
  · rfl

theorem mode_named {w : WCfg} (hn : w.named.keys.Nodup) (a : Name) :
    Dict.get w.mode (.named a) = if a ∈ w.named.keys then some ((w.named.get a).map (·.enabled)) else none := by
  unfold WCfg.mode
  rw [Dict.get_append]
  have h1 : Dict.get (w.positional.keys.map fun i => ((.pos i : Attr), (w.getAttr (.pos i)).map (·.enabled)))
      (.named a) = none := by
    rw [Dict.get_none_iff]
    simp [Dict.keys]
  rw [h1]
  have : ∀ ks : List Name, Dict.get (ks.map fun s => ((.named s : Attr), (w.getAttr (.named s)).map (·.enabled)))
      (.named a) = if a ∈ ks then some ((w.getAttr (.named a)).map (·.enabled)) else none := by
    intro ks
    induction ks with
    | nil => rfl
    | cons s ks ih =>
      rw [List.map_cons, Dict.get_cons, ih]
      by_cases hs : s = a
      · subst hs; simp
      · have : ¬ (Attr.named s = Attr.named a) := fun e => hs (by injection e)
        rw [if_neg this]
        have hs' : ¬ a = s := fun e => hs e.symm
        simp [hs']
  rw [this]
  split_ifs with hk
  · rw [getAttr_named hn hk]; rfl
  · rfl

theorem mode_pos (w : WCfg) (i : Nat) :
    Dict.get w.mode (.pos i) = if i ∈ w.positional.keys then some ((w.positional.get i).map (·.enabled)) else none := by
  unfold WCfg.mode
  rw [Dict.get_append]
  have h1 : Dict.get (w.named.keys.map fun s => ((.named s : Attr), (w.getAttr (.named s)).map (·.enabled)))
      (.pos i) = none := by
    rw [Dict.get_none_iff]
    simp [Dict.keys]
  rw [h1]
  have : ∀ ks : List Nat, Dict.get (ks.map fun i => ((.pos i : Attr), (w.getAttr (.pos i)).map (·.enabled)))
      (.pos i) = if i ∈ ks then some ((w.getAttr (.pos i)).map (·.enabled)) else none := by
    intro ks
    induction ks with
    | nil => rfl
    | cons s ks ih =>
      rw [List.map_cons, Dict.get_cons, ih]
      by_cases hs : s = i
      · subst hs; simp
      · have : ¬ (Attr.pos s = Attr.pos i) := fun e => hs (by injection e)
        rw [if_neg this]
        have hs' : ¬ i = s := fun e => hs e.symm
        simp [hs']
  rw [this]
  split_ifs with hk
  · rfl
  · rfl

/-- **C149 (what is loaded agrees)**: the settings of a layer made from the options of the platform, for any list of its
weights, agree as the theorem above asks. -/
theorem C149_loaded (attrs : List Attr) (baseOp : OpCfg Name) (ops : List (OpCfg Name)) (base : Cnd) (cs : List Cnd)
    (hb : mkCnd baseOp attrs = some base) (hcs : List.Forall₂ (fun o x => mkCnd o attrs = some x) ops cs)
    (c : NodeCfg) (h : mkNodeCfg base cs = some c) : Agree c := by
  unfold mkNodeCfg at h
  split_ifs at h with h1 h2 h3
  rw [Option.some.injEq] at h
  subst h
  have hkeys : ∀ x ∈ cs, x.weights.named.keys = base.weights.named.keys ∧
      x.weights.positional.keys = base.weights.positional.keys ∧ x.weights.named.keys.Nodup := by
    intro x hx
    obtain ⟨o, ho⟩ : ∃ o, mkCnd o attrs = some x := by
      clear h1 h2 h3
      induction hcs with
      | nil => cases hx
      | cons hab _ ih =>
        rcases List.mem_cons.mp hx with rfl | hx
        · exact ⟨_, hab⟩
        · exact ih hx
    obtain ⟨k1, k2, k3, k4⟩ := addAttrs_keys (mkCnd_weights ho) (mkCnd_weights hb) rfl rfl
      (by simp [Dict.keys]) (by simp [Dict.keys])
    exact ⟨k1, k2, k3⟩
  obtain ⟨-, -, k3, k4⟩ := addAttrs_keys (mkCnd_weights hb) (mkCnd_weights hb) rfl rfl
      (by simp [Dict.keys]) (by simp [Dict.keys])
  refine ⟨fun he => ?_, k3, k4, fun x hx => ?_⟩
  · simp only at he; rw [he] at h1; simp at h1
  · obtain ⟨e1, e2, e3⟩ := hkeys x hx
    have hm : dictSame base.weights.mode x.weights.mode = true := by
      by_contra hf
      exact h3 (List.any_eq_true.mpr ⟨x, hx, by simpa using hf⟩)
    refine ⟨e1, e2, fun a => ?_, fun i => ?_⟩
    · have := dictSame_get hm (.named a)
      rw [mode_named k3, mode_named e3, e1] at this
      by_cases ha : a ∈ base.weights.named.keys
      · simpa [ha] using this.symm
      · rw [(Dict.get_none_iff _ _).mpr ha, (Dict.get_none_iff _ _).mpr (by rw [e1]; exact ha)]
    · have := dictSame_get hm (.pos i)
      rw [mode_pos, mode_pos, e2] at this
      by_cases ha : i ∈ base.weights.positional.keys
      · simpa [ha] using this.symm
      · rw [(Dict.get_none_iff _ _).mpr ha, (Dict.get_none_iff _ _).mpr (by rw [e2]; exact ha)]

/-! ### Witnesses -/

/-- A layer with two candidates: 8 bits for all, or 4 bits for the kernel and the output. -/
def twoWays : NodeCfg := ⟨sampleCnd 8 8 8 .quant, [sampleCnd 8 8 8 .quant, sampleCnd 4 8 4 .quant]⟩

example : Agree twoWays := by
  refine ⟨by simp [twoWays], by decide +kernel, by decide +kernel, fun x hx => ?_⟩
  simp only [twoWays, List.mem_cons, List.not_mem_nil, or_false] at hx
  rcases hx with rfl | rfl <;>
    refine ⟨by decide +kernel, by decide +kernel, fun a => ?_, fun i => ?_⟩ <;>
    simp [twoWays, sampleCnd, Dict.get_cons, Dict.get_nil] <;> split_ifs <;> rfl

/-- With mixed precision the choice of 4 bits for the output leaves the second candidate. -/
example : (finalize (fun _ => some ['k']) true (twoAttrs ['k'] ['b']) [0] [⟨fun _ => true, 4⟩] []
    [(0, twoWays)]).map (fun d => (d.get 0).map (·.cands)) = some (some [sampleCnd 4 8 4 .quant]) := by decide +kernel

/-- **C149 is false of the code** for the offered combinations: without mixed precision, the choice of 4 bits for the
output gives a layer with an 8 bit kernel and a 4 bit output, which is none of the candidates of the platform. -/
theorem C149_offered_violated :
    (finalize (fun _ => some ['k']) false (twoAttrs ['k'] ['b']) [0] [⟨fun _ => true, 4⟩] []
      [(0, twoWays)]).map (fun d => (d.get 0).map (·.cands)) = some (some [sampleCnd 8 8 4 .quant]) ∧
    (sampleCnd 8 8 4 .quant) ∉ twoWays.cands := by decide +kernel

end MCT.Cand
