import Verif.Candidates.Fused

/-!
# C52: what filtering changes in the candidates it keeps
-/

namespace MCT.Cand

open MCT.Py MCT.Tpc MCT.CandSpec

/-- The settings of a weight that is not quantized: 32 bits and powers of two. -/
def asFloat (w : WAttr) : WAttr := { w with nBits := 32, method := .pot }

/-- `d` is `c` in which only the settings of the kernel `k` were made those of a float weight; `key` is the entry that
the name `k` stands for in every configuration of the same weights. -/
def KernelFloated (k : Name) (c d : WCfg) : Prop :=
  ∃ key w, hasSub key k = true ∧
    (∀ e : WCfg, e.named.keys = c.named.keys → e.getAttr (.named k) = e.named.get key) ∧
    c.getAttr (.named k) = some w ∧ d.getAttr (.named k) = some (asFloat w) ∧
    d.named.get key = some (asFloat w) ∧ d.named.keys = c.named.keys ∧
    ∀ key', key' ≠ key → d.named.get key' = c.named.get key'

/-- What a kept candidate may have lost: the settings of an activation and of a kernel that are not quantized. -/
def Unquantized (kernel : Option Name) (cs : List Cnd) (c d : Cnd) : Prop :=
  (d.act = c.act ∨ c.act.mode = .noQuant ∧ d.act = { c.act with nBits := 32, method := .pot }) ∧
  d.weights.simd = c.weights.simd ∧ d.weights.positional = c.weights.positional ∧
  (d.weights.named = c.weights.named ∨
    ¬ KernelQuantized kernel cs ∧ ∃ k, kernel = some k ∧ KernelFloated k c.weights d.weights)

/-- One entry of a dictionary replaced. -/
def setKey (x : Name) (d : Dict Name WAttr) : Dict Name WAttr :=
  d.map fun q => if q.1 = x then (q.1, { q.2 with nBits := floatBits, method := .pot }) else q

theorem setKey_keys (x : Name) (d : Dict Name WAttr) : (setKey x d).keys = d.keys := by
  unfold setKey Dict.keys
  rw [List.map_map]
  refine List.map_congr_left fun q _ => ?_
  simp only [Function.comp_apply]
  split_ifs <;> rfl

theorem setKey_get (x : Name) (d : Dict Name WAttr) (k : Name) :
    (setKey x d).get k = (d.get k).map fun w => if k = x then asFloat w else w := by
  unfold setKey Dict.get
  induction d with
  | nil => rfl
  | cons q d ih =>
    rw [List.map_cons, List.find?_cons, List.find?_cons]
    by_cases hq : q.1 = k
    · by_cases hx : q.1 = x
      · have hk : k = x := hq ▸ hx
        simp [hx, hk, asFloat, floatBits]
      · have : k ≠ x := hq ▸ hx
        simp [hx, hq, this]
    · have h1 : ((if q.1 = x then (q.1, { q.2 with nBits := floatBits, method := .pot }) else q) :
          Name × WAttr).1 = q.1 := by split_ifs <;> rfl
      rw [h1]
      simp only [hq, decide_false]
      exact ih

theorem setKey_filter (x k : Name) (d : Dict Name WAttr) :
    (setKey x d).filter (fun p => hasSub p.1 k) = setKey x (d.filter fun p => hasSub p.1 k) := by
  unfold setKey
  rw [List.filter_map]
  congr 1
  refine List.filter_congr fun q _ => ?_
  simp only [Function.comp_apply]
  split_ifs <;> rfl

theorem get_of_filter {d : Dict Name WAttr} {k : Name} {p : Name × WAttr}
    (h : d.filter (fun p => hasSub p.1 k) = [p]) : d.get p.1 = some p.2 ∧ hasSub p.1 k = true := by
  have hp : p ∈ d.filter (fun p => hasSub p.1 k) := by rw [h]; exact List.mem_singleton.mpr rfl
  rw [List.mem_filter] at hp
  refine ⟨?_, hp.2⟩
  unfold Dict.get
  cases hf : d.find? fun q => decide (q.1 = p.1) with
  | none =>
    rw [List.find?_eq_none] at hf
    exact absurd (decide_eq_true rfl) (hf p hp.1)
  | some e =>
    have he := List.find?_some hf
    have hm := List.mem_of_find?_eq_some hf
    rw [decide_eq_true_eq] at he
    have : e ∈ d.filter (fun p => hasSub p.1 k) := List.mem_filter.mpr ⟨hm, by rw [he]; exact hp.2⟩
    rw [h, List.mem_singleton] at this
    rw [this]
    rfl

theorem keys_filter (d : Dict Name WAttr) (k : Name) :
    (d.filter fun p => hasSub p.1 k).map Prod.fst = d.keys.filter fun x => hasSub x k := by
  unfold Dict.keys
  rw [List.filter_map]
  rfl

theorem floatKernel_spec {kernel : Option Name} {c d : Cnd} (h : floatKernel kernel c = some d) :
    d.act = c.act ∧ d.weights.simd = c.weights.simd ∧ d.weights.positional = c.weights.positional ∧
      (kernel = none → d = c) ∧ ∀ k, kernel = some k → KernelFloated k c.weights d.weights := by
  unfold floatKernel at h
  cases kernel with
  | none => cases h; exact ⟨rfl, rfl, rfl, fun _ => rfl, fun k hk => by cases hk⟩
  | some k =>
    simp only at h
    split at h
    next => cases h
    next p hp =>
      cases h
      refine ⟨rfl, rfl, rfl, fun hk => (by cases hk), fun k' hk => ?_⟩
      cases hk
      obtain ⟨hget, hsub⟩ := get_of_filter hp
      have hset : (c.weights.named.map fun q =>
        if q.1 = p.1 then (q.1, { q.2 with nBits := floatBits, method := .pot }) else q) =
          setKey p.1 c.weights.named := rfl
      refine ⟨p.1, p.2, hsub, ?_, ?_, ?_, ?_, ?_, fun key' hne => ?_⟩
      · intro e he
        have hm : (e.named.filter fun q => hasSub q.1 k).map Prod.fst = [p.1] := by
          rw [keys_filter, he, ← keys_filter, hp]; rfl
        obtain ⟨q, hq, hq1⟩ := List.map_eq_singleton_iff.mp hm
        rw [← hq1, (get_of_filter hq).1]
        unfold WCfg.getAttr; simp only; rw [hq]
      · unfold WCfg.getAttr; simp only; rw [hp]
      · unfold WCfg.getAttr
        simp only
        rw [hset, setKey_filter, hp]
        simp [setKey, asFloat, floatBits]
      · simp only; rw [hset, setKey_get, hget]; simp
      · simp only; rw [hset, setKey_keys]
      · simp only; rw [hset, setKey_get]; simp [hne]
    next hno1 hno2 =>
      split at h
      next hk =>
        cases h
        refine ⟨rfl, rfl, rfl, fun hk => (by cases hk), fun k' hk' => ?_⟩
        cases hk'
        have hset : (c.weights.named.map fun q =>
          if q.1 = k then (q.1, { q.2 with nBits := floatBits, method := .pot }) else q) =
            setKey k c.weights.named := rfl
        obtain ⟨w, hw⟩ := Option.isSome_iff_exists.mp (by
          rw [Option.isSome_iff_ne_none]
          exact fun hn => (Dict.get_none_iff _ _).mp hn hk)
        have hself : hasSub k k = true := by
          obtain ⟨p, hp, rfl⟩ := List.mem_map.mp hk
          exact (hasSub_iff _ _).2 (List.infix_refl _)
        have hcase : ∀ {l : List (Name × WAttr)}, l = c.weights.named.filter (fun p => hasSub p.1 k) →
            l ≠ [] ∧ ∀ p, l ≠ [p] := by
          rintro l rfl
          exact ⟨fun he => hno1 he, fun p he => hno2 p he⟩
        have hgetAttr : ∀ (n : Dict Name WAttr), (n.filter fun p => hasSub p.1 k) ≠ [] →
            (∀ p, (n.filter fun p => hasSub p.1 k) ≠ [p]) → ∀ s pos, WCfg.getAttr ⟨s, n, pos⟩ (.named k) = n.get k := by
          intro n h1 h2 s pos
          unfold WCfg.getAttr
          simp only
        obtain ⟨n1, n2⟩ := hcase rfl
        have m1 : ((setKey k c.weights.named).filter fun p => hasSub p.1 k) ≠ [] := by
          rw [setKey_filter]
          intro he
          unfold setKey at he
          exact n1 (List.map_eq_nil_iff.mp he)
        have m2 : ∀ p, ((setKey k c.weights.named).filter fun p => hasSub p.1 k) ≠ [p] := by
          intro p
          rw [setKey_filter]
          intro he
          unfold setKey at he
          obtain ⟨a, ha, -⟩ := List.map_eq_singleton_iff.mp he
          exact n2 a ha
        refine ⟨k, w, hself, ?_, ?_, ?_, ?_, ?_, fun key' hne => ?_⟩
        · intro e he
          have hm : (e.named.filter fun q => hasSub q.1 k).map Prod.fst =
              (c.weights.named.filter fun q => hasSub q.1 k).map Prod.fst := by
            rw [keys_filter, he, ← keys_filter]
          refine hgetAttr e.named (fun h0 => ?_) (fun q h0 => ?_) e.simd e.positional
          · rw [h0] at hm; exact n1 (List.map_eq_nil_iff.mp hm.symm)
          · rw [h0] at hm
            obtain ⟨r, hr, -⟩ := List.map_eq_singleton_iff.mp hm.symm
            exact n2 r hr
        · exact (hgetAttr c.weights.named n1 n2 c.weights.simd c.weights.positional).trans hw
        · refine (hgetAttr (setKey k c.weights.named) m1 m2 _ _).trans ?_
          rw [setKey_get, hw]; simp
        · simp only; rw [hset, setKey_get, hw]; simp
        · simp only; rw [hset, setKey_keys]
        · simp only; rw [hset, setKey_get]; simp [hne]
      next => cases h

/-- **C52 (nothing else is changed).**  Every candidate that is kept is one of the candidates in which at most the
settings of an output and of a kernel that are not quantized were changed, and these to 32 bits; the settings of every
other weight stay. -/
theorem C52_only_unquantized (kernel : Option Name) (cs ds : List Cnd) (h : filterCands kernel cs = some ds) :
    ∀ d ∈ ds, ∃ c ∈ cs, Unquantized kernel cs c d := by
  have hself : ∀ c, Unquantized kernel cs c c := fun c => ⟨Or.inl rfl, rfl, rfl, Or.inl rfl⟩
  unfold filterCands at h
  cases hnk : noKernel kernel cs with
  | none => rw [hnk] at h; cases h
  | some nk =>
    rw [hnk] at h
    have hk := noKernel_some hnk
    have hnot : nk = true → ¬ KernelQuantized kernel cs := fun ht hx => by
      rw [← hk, ht] at hx
      cases hx
    have hfloat : ∀ c d, (c.act.mode = .noQuant) → nk = true → floatKernel kernel (floatAct c) = some d →
        Unquantized kernel cs c d := by
      intro c d hm ht hd
      obtain ⟨h1, h2, h3, h4, h5⟩ := floatKernel_spec hd
      refine ⟨Or.inr ⟨hm, h1⟩, h2, h3, ?_⟩
      cases hkk : kernel with
      | none => exact Or.inl (by rw [h4 hkk]; rfl)
      | some k => exact Or.inr ⟨hkk ▸ hnot ht, k, rfl, h5 k hkk⟩
    have hfloat2 : ∀ c d, nk = true → floatKernel kernel c = some d → Unquantized kernel cs c d := by
      intro c d ht hd
      obtain ⟨h1, h2, h3, h4, h5⟩ := floatKernel_spec hd
      refine ⟨Or.inl h1, h2, h3, ?_⟩
      cases hkk : kernel with
      | none => exact Or.inl (by rw [h4 hkk])
      | some k => exact Or.inr ⟨hkk ▸ hnot ht, k, rfl, h5 k hkk⟩
    simp only at h
    split at h
    next c0 rest m hm =>
      have hmode := modeOf_some hm
      split at h
      next hc =>
        rw [Bool.and_eq_true, decide_eq_true_iff] at hc
        obtain ⟨d0, hd0, rfl⟩ := Option.map_eq_some_iff.mp h
        intro d hd
        rw [List.mem_singleton] at hd
        subst hd
        exact ⟨c0, List.mem_cons_self, hfloat c0 d ((hmode c0 List.mem_cons_self).trans hc.2) hc.1 hd0⟩
      next =>
        split at h
        next hmn =>
          intro d hd
          have := (filterDups_result h).1 d hd
          obtain ⟨c, hc, rfl⟩ := List.mem_map.mp this
          rcases dedupBy_mem _ _ _ c hc with h' | h'
          · cases h'
          · exact ⟨c, h', Or.inr ⟨(hmode c h').trans hmn, rfl⟩, rfl, rfl, Or.inl rfl⟩
        next =>
          split at h
          next =>
            intro d hd
            have := (filterDups_result h).1 d hd
            rcases dedupBy_mem _ _ _ d this with h' | h'
            · cases h'
            · exact ⟨d, h', hself d⟩
          next =>
            split at h
            next hnkt =>
              split at h
              next => cases h
              next es hes =>
                intro d hd
                have hd' := (filterDups_result h).1 d hd
                have hall := floatKernels_forall hes
                have : ∃ c ∈ dedupBy (fun x y : Cnd => x.act.same y.act) (c0 :: rest) [], floatKernel kernel c = some d := by
                  clear h hd hes
                  revert hall
                  generalize dedupBy (fun x y : Cnd => x.act.same y.act) (c0 :: rest) [] = us
                  intro hall
                  induction hall with
                  | nil => cases hd'
                  | cons h1 _ ih =>
                    rcases List.mem_cons.mp hd' with rfl | hd'
                    · exact ⟨_, List.mem_cons_self, h1⟩
                    · obtain ⟨c, hc, hcd⟩ := ih hd'
                      exact ⟨c, List.mem_cons_of_mem _ hc, hcd⟩
                obtain ⟨c, hc, hcd⟩ := this
                rcases dedupBy_mem _ _ _ c hc with h' | h'
                · cases h'
                · exact ⟨c, h', hfloat2 c d hnkt hcd⟩
            next =>
              cases h
              exact fun d hd => ⟨d, hd, hself d⟩
    next => cases h

/-- A layer with an unquantized kernel `k` and a quantized weight `b`: the kernel is made a float one, `b` stays. -/
example : (filterCands (some ['k']) [⟨⟨.pot, .pot, 8, .quant, .auto⟩,
    ⟨none, [(['k'], ⟨.sym, 8, true, false⟩), (['b'], ⟨.sym, 4, true, true⟩)], []⟩⟩]) =
    some [⟨⟨.pot, .pot, 8, .quant, .auto⟩,
      ⟨none, [(['k'], ⟨.pot, 32, true, false⟩), (['b'], ⟨.sym, 4, true, true⟩)], []⟩⟩] := by decide +kernel

end MCT.Cand
