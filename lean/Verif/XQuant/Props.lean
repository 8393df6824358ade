/-
C116: the report compares the two networks layer by layer, and averages the metrics over the dataset.
-/
import Verif.XQuant.Gather

namespace MCT.XQuant
open MCT
section
variable {X T K : Type} [Field K]

/-- The metrics of a run: the defaults updated with the ones of the user. -/
def runMetrics (defaults : Dict (Metric T K)) (custom : Option (Dict (Metric T K))) : Dict (Metric T K) :=
  match custom with
  | none => defaults
  | some c => Dict.update defaults c

theorem runMetrics_lookup (defaults : Dict (Metric T K)) (custom : Option (Dict (Metric T K)))
    (hc : ((custom.getD []).map Prod.fst).Nodup) (k : String) :
    (runMetrics defaults custom).lookup k = metricOf defaults custom k := by
  cases custom with
  | none => rfl
  | some c => exact lookup_update defaults c hc k

theorem compared_nodup (fw : Fw) (f q : Net X T) (hq : (q.wrapped.map Prod.fst).Nodup) :
    ((comparedLayers fw f q).map Prod.snd).Nodup := by
  cases fw with
  | torch =>
    simp only [comparedLayers, List.map_map]
    have : (Prod.snd ∘ fun n : String => (n, n)) = id := rfl
    rw [this, List.map_id]
    exact hq.filter _
  | keras =>
    simp only [comparedLayers, List.map_map]
    have : (Prod.snd ∘ Prod.swap : String × String → String) = Prod.fst := rfl
    rw [this]
    exact (List.Sublist.map _ List.filter_sublist).nodup hq

theorem compared_names (fw : Fw) (f q : Net X T) : ∀ p ∈ comparedLayers fw f q,
    p.1 ∈ f.layers ∧ p.2 ∈ q.wrapped.map Prod.fst := by
  intro p hp
  cases fw with
  | torch =>
    simp only [comparedLayers, List.mem_map, List.mem_filter, decide_eq_true_eq] at hp
    obtain ⟨n, ⟨⟨w, hw, rfl⟩, hf⟩, rfl⟩ := hp
    exact ⟨hf, List.mem_map.2 ⟨w, hw, rfl⟩⟩
  | keras =>
    simp only [comparedLayers, List.mem_map, List.mem_filter, decide_eq_true_eq] at hp
    obtain ⟨w, ⟨hw, hf⟩, rfl⟩ := hp
    exact ⟨hf, List.mem_map.2 ⟨w, hw, rfl⟩⟩

theorem compared_key (fw : Fw) (f q : Net X T)
    (hkey : outputKey ∉ f.layers ∧ outputKey ∉ q.wrapped.map Prod.fst) :
    outputKey ∉ (comparedLayers fw f q).map Prod.fst ∧ outputKey ∉ (comparedLayers fw f q).map Prod.snd := by
  constructor
  · intro h
    obtain ⟨p, hp, e⟩ := List.mem_map.1 h
    exact hkey.1 (e ▸ (compared_names fw f q p hp).1)
  · intro h
    obtain ⟨p, hp, e⟩ := List.mem_map.1 h
    exact hkey.2 (e ▸ (compared_names fw f q p hp).2)

theorem compute_eq (fw : Fw) (ls : T → T) (defaults : Dict (Metric T K))
    (custom : Option (Dict (Metric T K))) (f q : Net X T) (dataset : List X) :
    compute fw ls defaults custom f q dataset =
      if ((comparedLayers fw f q).map Prod.fst).Nodup then
        (dataset.foldlM (stepInput fw ls (runMetrics defaults custom) (comparedLayers fw f q) f q)
          (start (runMetrics defaults custom) (comparedLayers fw f q))).bind fun g =>
        (averages g.outs).bind fun o =>
        (g.inter.mapM (fun p => (averages p.2).map (fun a => (p.1, a)))).map fun i => (o, i)
      else none := by
  unfold compute
  dsimp only
  rw [comparePoints_spec _ _ _ (by simp), compared_eq]
  simp only [List.nil_append]
  split
  · rfl
  · rfl

/-- **C116.** Every number of the report is the mean, over all the inputs of the dataset, of the metric
between what the float network and the quantized network compute: for the outputs, and for each wrapped layer
that the float network has too.  The metrics are the default ones and those of the user, whose metrics win
over default metrics of the same name. -/
theorem C116_report (fw : Fw) (ls : T → T) (defaults : Dict (Metric T K))
    (custom : Option (Dict (Metric T K))) (f q : Net X T) (dataset : List X)
    (o : Dict K) (i : Dict (Dict K))
    (hc : ((custom.getD []).map Prod.fst).Nodup)
    (hq : (q.wrapped.map Prod.fst).Nodup)
    (hkey : outputKey ∉ f.layers ∧ outputKey ∉ q.wrapped.map Prod.fst)
    (hne : fw = .keras → comparedLayers fw f q ≠ [])
    (h : compute fw ls defaults custom f q dataset = some (o, i)) :
    (∀ k, k ∈ o.map Prod.fst ↔ ∃ m, metricOf defaults custom k = some m) ∧
    (∀ k m, metricOf defaults custom k = some m → ∃ v, o.lookup k = some v ∧
      IsMean dataset (fun x v => m (f.out x) (q.out x) = some v) v) ∧
    i.map Prod.fst = (comparedLayers fw f q).map Prod.snd ∧
    ∀ p ∈ comparedLayers fw f q, ∃ d, i.lookup p.2 = some d ∧
      (∀ k, k ∈ d.map Prod.fst ↔ ∃ m, metricOf defaults custom k = some m) ∧
      ∀ k m, metricOf defaults custom k = some m → ∃ v, d.lookup k = some v ∧
        IsMean dataset (fun x v => ∃ a b, LastCall f x p.1 a ∧ LastCall q x p.2 b ∧ m a b = some v) v := by
  rw [compute_eq] at h
  split at h
  swap
  · simp at h
  simp only [Option.bind_eq_some_iff, Option.map_eq_some_iff, Prod.mk.injEq] at h
  obtain ⟨g, hg, o', ho, i', hi, rfl, rfl⟩ := h
  have hn := compared_nodup fw f q hq
  have inv := fold_inv fw ls _ _ f q hn (compared_key fw f q hkey) hne dataset [] _ g
    (start_inv _ _ f q hn) hg
  rw [List.nil_append] at inv
  have ha := averages_spec _ _ ho
  have hrel : Rel (fun _ d a => averages d = some a) g.inter i' :=
    (mapM_rel (fun _ (d : Dict (List K)) => averages d) g.inter i').1 hi
  have keys : ∀ k, k ∈ (runMetrics defaults custom).map Prod.fst ↔
      ∃ m, metricOf defaults custom k = some m := by
    intro k
    rw [← lookup_isSome, runMetrics_lookup defaults custom hc]
  refine ⟨?_, ?_, ?_, ?_⟩
  · intro k
    rw [ha.keys, inv.outKeys, keys]
  · intro k m hm
    rw [← runMetrics_lookup defaults custom hc] at hm
    obtain ⟨vals, h1, h2⟩ := inv.outVals k m hm
    obtain ⟨v, h3, h4⟩ := ha.lookup h1
    exact ⟨v, h3, average_isMean _ _ _ _ h2 h4⟩
  · rw [hrel.keys, inv.interKeys]
  · intro p hp
    obtain ⟨d, h1, h2⟩ := inv.layerKeys p hp
    obtain ⟨a, h3, h4⟩ := hrel.lookup h1
    have h4 := averages_spec _ _ h4
    refine ⟨a, h3, ?_, ?_⟩
    · intro k; rw [h4.keys, h2, keys]
    · intro k m hm
      rw [← runMetrics_lookup defaults custom hc] at hm
      obtain ⟨vals, h5, h6⟩ := inv.layerVals p hp d h1 k m hm
      obtain ⟨v, h7, h8⟩ := h4.lookup h5
      exact ⟨v, h7, average_isMean _ _ _ _ h6 h8⟩

/-! ### When there is a report -/

/-- The call of a layer can be observed: it happens, and in Keras it happens once. -/
def Observed (fw : Fw) (n : Net X T) (x : X) (name : String) (t : T) : Prop :=
  match fw with
  | .torch => LastCall n x name t
  | .keras => (n.calls x).filter (fun c => decide (c.1 = name)) = [(name, t)]

theorem mapM_names {n : Net X T} {x : X} (names : List String)
    (h : ∀ name ∈ names, ∃ t, kerasOutput n x name = some t) :
    ∃ d, names.mapM (fun name => (kerasOutput n x name).map (fun t => (name, t))) = some d := by
  induction names with
  | nil => exact ⟨[], rfl⟩
  | cons a names ih =>
    obtain ⟨t, ht⟩ := h a (by simp)
    obtain ⟨d, hd⟩ := ih (fun b hb => h b (List.mem_cons_of_mem _ hb))
    exact ⟨(a, t) :: d, by simp [List.mapM_cons, ht, hd]⟩

theorem extract_isSome (fw : Fw) (ls : T → T) (n : Net X T) (names : List String) (x : X)
    (hne : fw = .keras → names ≠ []) (hkey : outputKey ∉ names)
    (h : ∀ name ∈ names, ∃ t, Observed fw n x name t) :
    ∃ d, extract fw ls n names x = some d ∧ d.lookup outputKey = some (n.out x) ∧
      ∀ name ∈ names, ∀ t, Observed fw n x name t → d.lookup name = some t := by
  cases fw with
  | torch =>
    refine ⟨_, rfl, torchActs_out n names x, ?_⟩
    intro name hn t ht
    exact (torchActs_layer n names x name t hn (fun e => hkey (e ▸ hn))).2 ht
  | keras =>
    have hk : ∀ name t, Observed .keras n x name t → kerasOutput n x name = some t := by
      intro name t ht
      unfold kerasOutput
      simp only [Observed] at ht
      rw [ht]
    obtain ⟨d0, h0⟩ := mapM_names (n := n) (x := x) names
      (fun name hn => (h name hn).imp (fun t ht => hk name t ht))
    have he : ∃ d, kerasActs ls n names x = some d := by
      unfold kerasActs
      rw [h0]
      exact ⟨_, rfl⟩
    obtain ⟨d, hd⟩ := he
    obtain ⟨h1, h2⟩ := kerasActs_spec ls n names x d hd (hne rfl)
    refine ⟨d, hd, h1, ?_⟩
    intro name hn t ht
    obtain ⟨t', h3, h4⟩ := h2 name hn (fun e => hkey (e ▸ hn))
    rw [hk name t ht] at h4
    cases h4
    exact h3

theorem similarity_isSome (metrics : Dict (Metric T K)) (a b : T)
    (h : ∀ m ∈ metrics, ∃ v, m.2 a b = some v) : ∃ res, similarity metrics a b = some res :=
  mapM_isSome (fun _ (m : Metric T K) => m a b) metrics h

theorem foldLayers_isSome (metrics : Dict (Metric T K)) (fa qa : Dict T) (pairs : Dict String)
    (inter : Dict (Dict (List K)))
    (h : ∀ p ∈ pairs, ∃ a b, fa.lookup p.1 = some a ∧ qa.lookup p.2 = some b ∧
      ∀ m ∈ metrics, ∃ v, m.2 a b = some v)
    (hi : ∀ p ∈ pairs, ∃ d, inter.lookup p.2 = some d ∧ d.map Prod.fst = metrics.map Prod.fst) :
    ∃ inter', pairs.foldlM (stepLayer metrics fa qa) inter = some inter' := by
  induction pairs generalizing inter with
  | nil => exact ⟨inter, rfl⟩
  | cons p pairs ih =>
    obtain ⟨a, b, h1, h2, h3⟩ := h p (by simp)
    obtain ⟨d, h4, h5⟩ := hi p (by simp)
    obtain ⟨res, h6⟩ := similarity_isSome metrics a b h3
    have hk := (similarity_spec metrics a b res h6).keys
    obtain ⟨d', h7⟩ := appendAll_isSome d res (h5.trans hk.symm)
    have hs : stepLayer metrics fa qa inter p = some (Dict.set inter p.2 d') := by
      unfold stepLayer
      rw [h1, Option.bind_some, h2, Option.bind_some, h6, Option.bind_some, h4, Option.bind_some, h7]
      rfl
    rw [List.foldlM_cons, hs]
    apply ih _ (fun q hq => h q (List.mem_cons_of_mem _ hq))
    intro q hq
    rw [lookup_set]
    by_cases e : q.2 = p.2
    · rw [if_pos e]
      exact ⟨d', rfl, (appendAll_spec _ _ _ h7).keys.trans h5⟩
    · rw [if_neg e]
      exact hi q (List.mem_cons_of_mem _ hq)

theorem fold_isSome (fw : Fw) (ls : T → T) (metrics : Dict (Metric T K)) (pairs : Dict String)
    (f q : Net X T) (hn : (pairs.map Prod.snd).Nodup)
    (hkey : outputKey ∉ pairs.map Prod.fst ∧ outputKey ∉ pairs.map Prod.snd)
    (hne : fw = .keras → pairs ≠ []) (todo done : List X) (g : Gathered K)
    (hg : Inv metrics pairs f q done g)
    (hout : ∀ x ∈ todo, ∀ m ∈ metrics, ∃ v, m.2 (f.out x) (q.out x) = some v)
    (hlay : ∀ x ∈ todo, ∀ p ∈ pairs, ∃ a b, Observed fw f x p.1 a ∧ Observed fw q x p.2 b ∧
      ∀ m ∈ metrics, ∃ v, m.2 a b = some v) :
    ∃ g', todo.foldlM (stepInput fw ls metrics pairs f q) g = some g' := by
  induction todo generalizing done g with
  | nil => exact ⟨g, rfl⟩
  | cons x todo ih =>
    have hl := hlay x (by simp)
    obtain ⟨fa, f1, f2, f3⟩ := extract_isSome fw ls f (pairs.map Prod.fst) x
      (fun e he => hne e (List.map_eq_nil_iff.1 he)) hkey.1 (by
        intro name hname
        obtain ⟨p, hp, rfl⟩ := List.mem_map.1 hname
        obtain ⟨a, b, h1, -, -⟩ := hl p hp
        exact ⟨a, h1⟩)
    obtain ⟨qa, q1, q2, q3⟩ := extract_isSome fw ls q (pairs.map Prod.snd) x
      (fun e he => hne e (List.map_eq_nil_iff.1 he)) hkey.2 (by
        intro name hname
        obtain ⟨p, hp, rfl⟩ := List.mem_map.1 hname
        obtain ⟨a, b, -, h1, -⟩ := hl p hp
        exact ⟨b, h1⟩)
    obtain ⟨res, h5⟩ := similarity_isSome metrics _ _ (hout x (by simp))
    obtain ⟨outs, h6⟩ := appendAll_isSome g.outs res
      (hg.outKeys.trans (similarity_spec metrics _ _ res h5).keys.symm)
    obtain ⟨inter, h7⟩ := foldLayers_isSome metrics fa qa pairs g.inter (by
      intro p hp
      obtain ⟨a, b, h1, h2, h3⟩ := hl p hp
      exact ⟨a, b, f3 _ (List.mem_map.2 ⟨p, hp, rfl⟩) a h1, q3 _ (List.mem_map.2 ⟨p, hp, rfl⟩) b h2, h3⟩)
      hg.layerKeys
    have hs : stepInput fw ls metrics pairs f q g x = some { outs := outs, inter := inter } := by
      unfold stepInput
      rw [f1, Option.bind_some, q1, Option.bind_some, f2, Option.bind_some, q2, Option.bind_some, h5,
        Option.bind_some, h6, Option.bind_some, h7]
      rfl
    rw [List.foldlM_cons, hs]
    exact ih (done ++ [x]) _ (stepInput_inv fw ls metrics pairs f q hn hkey hne done x g _ hg hs)
      (fun y hy => hout y (List.mem_cons_of_mem _ hy)) (fun y hy => hlay y (List.mem_cons_of_mem _ hy))

/-- **C116.** There is a report whenever the dataset has an input, no two quantized layers stand for one float
layer, every compared layer is called (once, in Keras) in both networks, and the metrics are defined. -/
theorem C116_report_exists (fw : Fw) (ls : T → T) (defaults : Dict (Metric T K))
    (custom : Option (Dict (Metric T K))) (f q : Net X T) (dataset : List X)
    (hd : (defaults.map Prod.fst).Nodup)
    (hc : ((custom.getD []).map Prod.fst).Nodup)
    (hq : (q.wrapped.map Prod.fst).Nodup)
    (hkey : outputKey ∉ f.layers ∧ outputKey ∉ q.wrapped.map Prod.fst)
    (hne : fw = .keras → comparedLayers fw f q ≠ [])
    (hdup : ((comparedLayers fw f q).map Prod.fst).Nodup)
    (hdata : dataset ≠ [])
    (hout : ∀ x ∈ dataset, ∀ k m, metricOf defaults custom k = some m →
      ∃ v, m (f.out x) (q.out x) = some v)
    (hlay : ∀ x ∈ dataset, ∀ p ∈ comparedLayers fw f q, ∃ a b, Observed fw f x p.1 a ∧
      Observed fw q x p.2 b ∧ ∀ k m, metricOf defaults custom k = some m → ∃ v, m a b = some v) :
    ∃ r, compute fw ls defaults custom f q dataset = some r := by
  have hmn : ((runMetrics defaults custom).map Prod.fst).Nodup := by
    cases custom with
    | none => exact hd
    | some c => exact nodup_update defaults c hd
  have hm : ∀ m ∈ runMetrics defaults custom, metricOf defaults custom m.1 = some m.2 := by
    intro m hm
    rw [← runMetrics_lookup defaults custom hc]
    exact lookup_mem _ hmn hm
  have hn := compared_nodup fw f q hq
  have hkey' := compared_key fw f q hkey
  obtain ⟨g, hg⟩ := fold_isSome fw ls (runMetrics defaults custom) (comparedLayers fw f q) f q hn hkey' hne
    dataset [] _ (start_inv _ _ f q hn)
    (fun x hx m hmm => hout x hx m.1 m.2 (hm m hmm))
    (fun x hx p hp => by
      obtain ⟨a, b, h1, h2, h3⟩ := hlay x hx p hp
      exact ⟨a, b, h1, h2, fun m hmm => h3 m.1 m.2 (hm m hmm)⟩)
  have inv := fold_inv fw ls _ _ f q hn hkey' hne dataset [] _ g (start_inv _ _ f q hn) hg
  rw [List.nil_append] at inv
  have havg : ∀ vals : List K, ∀ value : X → K → Prop, List.Forall₂ value dataset vals →
      ∃ v, average vals = some v := by
    intro vals value hv
    unfold average
    rw [if_neg]
    · exact ⟨_, rfl⟩
    · rintro rfl
      cases hv
      exact hdata rfl
  have hdict : ∀ d : Dict (List K), d.map Prod.fst = (runMetrics defaults custom).map Prod.fst →
      (∀ k m, (runMetrics defaults custom).lookup k = some m → ∃ vals value, d.lookup k = some vals ∧
        List.Forall₂ (value : X → K → Prop) dataset vals) → ∃ a, averages d = some a := by
    intro d hk hv
    apply mapM_isSome (fun _ (l : List K) => average l) d
    intro p hp
    have hpk : p.1 ∈ (runMetrics defaults custom).map Prod.fst := hk ▸ List.mem_map.2 ⟨p, hp, rfl⟩
    obtain ⟨m, hm⟩ := (lookup_isSome _ _).2 hpk
    obtain ⟨vals, value, h1, h2⟩ := hv p.1 m hm
    have h3 := lookup_mem d (hk ▸ hmn) (k := p.1) (v := p.2) hp
    rw [h3] at h1
    cases h1
    exact havg _ _ h2
  obtain ⟨o, ho⟩ := hdict g.outs inv.outKeys (fun k m hm => by
    obtain ⟨vals, h1, h2⟩ := inv.outVals k m hm
    exact ⟨vals, _, h1, h2⟩)
  have hin : ∃ i, g.inter.mapM (fun p => (averages p.2).map (fun a => (p.1, a))) = some i := by
    apply mapM_isSome (fun _ (d : Dict (List K)) => averages d) g.inter
    intro p hp
    have hpk : p.1 ∈ (comparedLayers fw f q).map Prod.snd := inv.interKeys ▸ List.mem_map.2 ⟨p, hp, rfl⟩
    obtain ⟨c, hc1, hc2⟩ := List.mem_map.1 hpk
    have h3 := lookup_mem g.inter (inv.interKeys ▸ hn) (k := p.1) (v := p.2) hp
    obtain ⟨d, h1, h2⟩ := inv.layerKeys c hc1
    rw [hc2, h3] at h1
    cases h1
    apply hdict _ h2
    intro k m hm
    obtain ⟨vals, h4, h5⟩ := inv.layerVals c hc1 p.2 (by rw [hc2]; exact h3) k m hm
    exact ⟨vals, _, h4, h5⟩
  obtain ⟨i, hi⟩ := hin
  refine ⟨(o, i), ?_⟩
  rw [compute_eq, if_pos hdup, hg, Option.bind_some, ho, Option.bind_some, hi]
  rfl

/-- **C116.** Two quantized layers for one float layer are refused. -/
theorem C116_duplicate (fw : Fw) (ls : T → T) (defaults : Dict (Metric T K))
    (custom : Option (Dict (Metric T K))) (f q : Net X T) (dataset : List X)
    (h : ¬ ((comparedLayers fw f q).map Prod.fst).Nodup) :
    compute fw ls defaults custom f q dataset = none := by
  rw [compute_eq, if_neg h]

/-- **C116.** There is no report on an empty dataset, unless there is no metric at all. -/
theorem C116_empty_dataset (fw : Fw) (ls : T → T) (defaults : Dict (Metric T K))
    (custom : Option (Dict (Metric T K))) (f q : Net X T) (h : defaults ≠ []) :
    compute fw ls defaults custom f q [] = none := by
  have hr : runMetrics defaults custom ≠ [] := by
    cases custom with
    | none => exact h
    | some c =>
      have key : ∀ e d : Dict (Metric T K), d ≠ [] → Dict.update d e ≠ [] := by
        intro e
        induction e with
        | nil => intro d hd; exact hd
        | cons p e ih =>
          intro d hd
          apply ih
          intro (hs : Dict.set d p.1 p.2 = [])
          have hk := keys_set d p.1 p.2
          rw [hs] at hk
          cases d with
          | nil => exact hd rfl
          | cons x d =>
            split at hk <;> simp at hk
      exact key c defaults h
  rw [compute_eq]
  split
  · rw [List.foldlM_nil]
    have : averages (start (runMetrics defaults custom) (comparedLayers fw f q)).outs = none := by
      cases hm : runMetrics defaults custom with
      | nil => exact absurd hm hr
      | cons p ms => simp [averages, start, average, List.mapM_cons]
    simp [this]
  · rfl

end

/-! ### The datasets -/

/-- **C116.** From a sample of the validation dataset only the inputs are used, and the labels never. -/
theorem C116_labels_dropped {T : Type} (inputs : Arg T) (labels labels' : List (Arg T)) :
    processData true (inputs :: labels) = processData true (inputs :: labels') ∧
    ∀ ts, processData true (inputs :: labels) = some ts ↔ (inputs = .many ts ∨ ∃ t, inputs = .one t ∧ ts = [t]) := by
  constructor
  · cases inputs <;> rfl
  · intro ts
    cases inputs with
    | one t => simp [processData, eq_comm]
    | many us => simp [processData, eq_comm]

/-- **C116.** A sample of the representative dataset is passed on as it is. -/
theorem C116_representative {T : Type} (ts : List T) :
    processData false (ts.map Arg.one) = some ts := by
  simp only [processData, Bool.false_eq_true, if_false]
  induction ts with
  | nil => rfl
  | cons t ts ih => simp [List.mapM_cons, ih]

end MCT.XQuant
