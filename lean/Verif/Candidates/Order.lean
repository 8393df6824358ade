import Verif.Candidates.Prepared

/-!
# C150: the numbers of the candidates mean the same in the measured model
-/

namespace MCT.CandSpec
open MCT.Py MCT.Tpc MCT.Cand

/-- Two candidates that offer the same numbers of bits, for the activation and for the kernel if there is one. -/
def SameBits (kernel : Option Name) (a b : Cnd) : Prop :=
  a.act.nBits = b.act.nBits ∧ ∀ k, kernel = some k →
    (a.weights.getAttr (.named k)).map (·.nBits) = (b.weights.getAttr (.named k)).map (·.nBits)

end MCT.CandSpec

namespace MCT.Cand

open MCT.Py MCT.Tpc MCT.CandSpec

/-- The loop of `verify_candidates_descending_order`, configurable_quantizer_utils.py 39-46 and 49-54: each key is
smaller than the one before, the first than infinity. -/
def descends : Option (Nat × Nat) → List (Nat × Nat) → Bool
  | _, [] => true
  | none, k :: ks => descends (some k) ks
  | some m, k :: ks => !keyLe m k && descends (some k) ks

/-- `verify_candidates_descending_order`, configurable_quantizer_utils.py 23-56: the key of a candidate is that of
`sort_node_candidates`.  `none` when the kernel is unknown, `some false` when the assertion fails. -/
def verifyOrder (kernel : Option Name) (cs : List Cnd) : Option Bool :=
  (withKeys kernel cs).map fun ks => descends none (ks.map (·.1))

/-- The candidates of the quantizers of a layer of the measured model, in their order: pytorch
mixed_precision_model_builder.py 101-106 and 146, keras mixed_precision_model_builder.py 107-109 and 145, both on a copy of the
node, followed by the check of both configurable quantizers (pytorch configurable_weights_quantizer.py 75,
configurable_activation_quantizer.py 62).  The sort is that of `sort_node_candidates`. -/
def measuredCands (kernel : Option Name) (cs : List Cnd) : Option (List Cnd) :=
  (sortCands kernel cs).bind fun ds => (verifyOrder kernel ds).bind fun b => if b then some ds else none

/-! ### Sorting a sorted list -/

theorem sort_of_sorted (l : List ((Nat × Nat) × Cnd)) (h : l.Pairwise (fun a b => keyLe b.1 a.1 = true)) :
    l.foldr insertDesc [] = l := by
  induction l with
  | nil => rfl
  | cons x l ih =>
    rw [List.pairwise_cons] at h
    rw [List.foldr_cons, ih h.2]
    cases l with
    | nil => rfl
    | cons y ys => simp only [insertDesc]; rw [if_pos (h.1 y (by simp))]

theorem withKeys_some {kernel : Option Name} {cs : List Cnd} (h : ∀ c ∈ cs, (sortKey kernel c).isSome) :
    ∃ ks, withKeys kernel cs = some ks := by
  induction cs with
  | nil => exact ⟨[], rfl⟩
  | cons c cs ih =>
    obtain ⟨ks, hk⟩ := ih fun d hd => h d (by simp [hd])
    obtain ⟨k, hc⟩ := Option.isSome_iff_exists.mp (h c (by simp))
    exact ⟨(k, c) :: ks, by simp only [withKeys, hc, hk, Option.map_some]⟩

theorem above_keyLe {kernel : Option Name} {a b : Cnd} {x y : Nat × Nat} (ha : sortKey kernel a = some x)
    (hb : sortKey kernel b = some y) (h : Above kernel a b) : keyLe y x = true := by
  unfold sortKey at ha hb
  unfold Above at h
  cases kernel with
  | none =>
    simp only [Option.some.injEq] at ha hb
    subst ha hb
    simp only at h
    simp only [keyLe, decide_eq_true_iff]
    omega
  | some k =>
    obtain ⟨u, v, hu, hv, h⟩ := h
    simp only [hu, hv, Option.map_some, Option.some.injEq] at ha hb
    subst ha hb
    simp only [keyLe, decide_eq_true_iff]
    exact h

theorem sortCands_of_sorted {kernel : Option Name} {cs : List Cnd} (h : cs.Pairwise (Above kernel))
    (hk : ∀ c ∈ cs, (sortKey kernel c).isSome) : sortCands kernel cs = some cs := by
  obtain ⟨ks, hks⟩ := withKeys_some hk
  obtain ⟨h1, h2⟩ := withKeys_result hks
  have hp : ks.Pairwise (fun a b => keyLe b.1 a.1 = true) := by
    rw [← h1, List.pairwise_map] at h
    exact h.imp_of_mem fun ha hb hab => above_keyLe (h2 _ ha) (h2 _ hb) hab
  unfold sortCands
  rw [hks, Option.map_some, sort_of_sorted ks hp, h1]

/-! ### The check -/

theorem descends_iff (m : Option (Nat × Nat)) (ks : List (Nat × Nat)) :
    descends m ks = true ↔ (∀ x, m = some x → ∀ k ∈ ks, keyLe x k = false) ∧
      ks.Pairwise (fun a b => keyLe a b = false) := by
  induction ks generalizing m with
  | nil => cases m <;> simp [descends]
  | cons k ks ih =>
    have htr : ∀ x, keyLe x k = false → (∀ a ∈ ks, keyLe k a = false) → ∀ a ∈ ks, keyLe x a = false := by
      intro x hx hk a ha
      have := hk a ha
      simp only [keyLe, decide_eq_false_iff_not] at *
      omega
    cases m with
    | none =>
      simp only [descends, ih, List.pairwise_cons]
      constructor
      · rintro ⟨h1, h2⟩; exact ⟨fun x hx => (by cases hx), h1 k rfl, h2⟩
      · rintro ⟨_, h1, h2⟩; exact ⟨fun x hx => by cases hx; exact h1, h2⟩
    | some x =>
      simp only [descends, Bool.and_eq_true, Bool.not_eq_true', ih, List.pairwise_cons]
      constructor
      · rintro ⟨h0, h1, h2⟩
        refine ⟨fun y hy a ha => ?_, h1 k rfl, h2⟩
        cases hy
        rcases List.mem_cons.mp ha with rfl | ha
        · exact h0
        · exact htr x h0 (h1 k rfl) a ha
      · rintro ⟨h0, h1, h2⟩
        exact ⟨h0 x rfl k (by simp), fun y hy => by cases hy; exact h1, h2⟩

theorem sortKey_sameBits {kernel : Option Name} {a b : Cnd} {x y : Nat × Nat} (ha : sortKey kernel a = some x)
    (hb : sortKey kernel b = some y) : x = y ↔ SameBits kernel a b := by
  unfold sortKey at ha hb
  unfold SameBits
  cases kernel with
  | none =>
    simp only [Option.some.injEq] at ha hb
    subst ha hb
    simp
  | some k =>
    simp only [Option.map_eq_some_iff] at ha hb
    obtain ⟨u, hu, ha⟩ := ha
    obtain ⟨v, hv, hb⟩ := hb
    subst ha hb
    constructor
    · intro h
      rw [Prod.mk.injEq] at h
      refine ⟨h.2, fun k' hk => ?_⟩
      cases hk
      rw [hu, hv, Option.map_some, Option.map_some, h.1]
    · rintro ⟨h1, h2⟩
      have := h2 k rfl
      rw [hu, hv, Option.map_some, Option.map_some, Option.some.injEq] at this
      rw [Prod.mk.injEq]
      exact ⟨this, h1⟩

theorem sortCands_keys {kernel : Option Name} {cs ds : List Cnd} (h : sortCands kernel cs = some ds) :
    ∀ c ∈ cs, (sortKey kernel c).isSome := by
  unfold sortCands at h
  obtain ⟨ks, hk, -⟩ := Option.map_eq_some_iff.mp h
  obtain ⟨h1, h2⟩ := withKeys_result hk
  intro c hc
  rw [← h1] at hc
  obtain ⟨p, hp, rfl⟩ := List.mem_map.mp hc
  rw [h2 p hp]; rfl

theorem C150_accepted (kernel : Option Name) (cs ds : List Cnd) (h : sortCands kernel cs = some ds) :
    measuredCands kernel cs = some ds ∧ cs.Pairwise (fun a b => ¬ SameBits kernel a b) ∨
    measuredCands kernel cs = none ∧ ¬ cs.Pairwise (fun a b => ¬ SameBits kernel a b) := by
  obtain ⟨hperm, hs⟩ := sortCands_result h
  have hkeys := sortCands_keys h
  obtain ⟨ks, hks⟩ := withKeys_some (cs := ds) fun c hc => hkeys c (hperm.subset hc)
  obtain ⟨h1, h2⟩ := withKeys_result hks
  have hsym : ∀ {a b : Cnd}, ¬ SameBits kernel a b → ¬ SameBits kernel b a :=
    fun hab hba => hab ⟨hba.1.symm, fun k hk => (hba.2 k hk).symm⟩
  have hiff : descends none (ks.map (·.1)) = true ↔ cs.Pairwise (fun a b => ¬ SameBits kernel a b) := by
    rw [← hperm.pairwise_iff hsym, ← h1, List.pairwise_map, descends_iff, List.pairwise_map]
    have hs' : ks.Pairwise (fun a b => keyLe b.1 a.1 = true) := by
      rw [← h1, List.pairwise_map] at hs
      exact hs.imp_of_mem fun ha hb hab => above_keyLe (h2 _ ha) (h2 _ hb) hab
    constructor
    · rintro ⟨-, hd⟩
      refine hd.imp_of_mem fun {a b} ha hb hab hsame => ?_
      rw [← sortKey_sameBits (h2 a ha) (h2 b hb)] at hsame
      rw [hsame] at hab
      simp [keyLe] at hab
    · intro hd
      refine ⟨fun x hx => (by cases hx), ?_⟩
      refine (hs'.and hd).imp_of_mem fun {a b} ha hb hab => ?_
      rw [← sortKey_sameBits (h2 a ha) (h2 b hb)] at hab
      obtain ⟨hle, hne⟩ := hab
      have hne' : ¬ (a.1.1 = b.1.1 ∧ a.1.2 = b.1.2) := fun hh => hne (Prod.ext hh.1 hh.2)
      simp only [keyLe, decide_eq_true_iff, decide_eq_false_iff_not] at *
      omega
  unfold measuredCands verifyOrder
  rw [h, Option.bind_some, hks, Option.map_some, Option.bind_some]
  by_cases hd : descends none (ks.map (·.1)) = true
  · exact Or.inl ⟨by rw [if_pos hd], hiff.mp hd⟩
  · exact Or.inr ⟨by rw [if_neg hd], fun hh => hd (hiff.mpr hh)⟩

/-! ### Filtering keeps the order -/

theorem dedupBy_sublist {α : Type} (same : α → α → Bool) (l acc : List α) :
    (dedupBy same l acc).Sublist (acc ++ l) := by
  induction l generalizing acc with
  | nil => simp [dedupBy]
  | cons c cs ih =>
    simp only [dedupBy]
    split
    · exact (ih acc).trans (List.Sublist.append_left (List.sublist_cons_self c cs) acc)
    · have := ih (acc ++ [c]); simpa using this

theorem filterDups_sublist {kernel : Option Name} {cs ds : List Cnd} {seen : List Comb}
    (h : filterDups kernel cs seen = some ds) :
    ds.Sublist cs ∧ ∀ c ∈ cs, (sortKey kernel c).isSome := by
  induction cs generalizing ds seen with
  | nil => simp only [filterDups, Option.some.injEq] at h; subst h; simp
  | cons c cs ih =>
    simp only [filterDups] at h
    cases hk : combOf kernel c with
    | none => rw [hk] at h; simp at h
    | some x =>
      have hc : (sortKey kernel c).isSome := by
        unfold combOf at hk
        unfold sortKey
        cases kernel with
        | none => rfl
        | some k =>
          simp only at hk ⊢
          cases hw : c.weights.getAttr (.named k) with
          | none => rw [hw] at hk; cases hk
          | some w => rfl
      rw [hk] at h
      simp only at h
      split at h
      · obtain ⟨h1, h2⟩ := ih h
        exact ⟨h1.cons c, by simp only [List.mem_cons, forall_eq_or_imp]; exact ⟨hc, h2⟩⟩
      · obtain ⟨r, hr, rfl⟩ := Option.map_eq_some_iff.mp h
        obtain ⟨h1, h2⟩ := ih hr
        exact ⟨h1.cons_cons c, by simp only [List.mem_cons, forall_eq_or_imp]; exact ⟨hc, h2⟩⟩

theorem filterDups_sorted {kernel : Option Name} {cs ds : List Cnd} (hs : cs.Pairwise (Above kernel))
    (h : filterDups kernel cs [] = some ds) : sortCands kernel ds = some ds := by
  obtain ⟨h1, h2⟩ := filterDups_sublist h
  exact sortCands_of_sorted (hs.sublist h1) fun c hc => h2 c (h1.subset hc)

theorem floatAct_above {kernel : Option Name} {a b : Cnd} (h : Above kernel a b) :
    Above kernel (floatAct a) (floatAct b) := by
  unfold Above at *
  cases kernel with
  | none => exact le_refl _
  | some k =>
    obtain ⟨x, y, hx, hy, h⟩ := h
    refine ⟨x, y, hx, hy, ?_⟩
    rcases h with h | ⟨h, -⟩
    · exact Or.inl h
    · exact Or.inr ⟨h, le_refl _⟩

theorem kernelEnabled_get {k : Name} {cs : List Cnd} {b : Bool} (h : kernelEnabled k cs = some b) :
    ∀ c ∈ cs, ∃ w, c.weights.getAttr (.named k) = some w := by
  induction cs generalizing b with
  | nil => simp
  | cons c cs ih =>
    simp only [kernelEnabled] at h
    cases hw : c.weights.getAttr (.named k) with
    | none => rw [hw] at h; simp at h
    | some w =>
      rw [hw] at h
      obtain ⟨r, h1, -⟩ := Option.map_eq_some_iff.mp h
      intro x hx
      rcases List.mem_cons.mp hx with rfl | hx
      · exact ⟨w, hw⟩
      · exact ih h1 x hx

theorem kernelEnabled_ne_none {k : Name} {cs : List Cnd}
    (h : ∀ c ∈ cs, ∃ w, c.weights.getAttr (.named k) = some w) : kernelEnabled k cs ≠ none := by
  induction cs with
  | nil => simp [kernelEnabled]
  | cons c cs ih =>
    obtain ⟨w, hw⟩ := h c (by simp)
    simp only [kernelEnabled, hw, ne_eq, Option.map_eq_none_iff]
    exact ih fun d hd => h d (by simp [hd])

theorem floatKernels_none (cs : List Cnd) : floatKernels none cs = some cs := by
  induction cs with
  | nil => rfl
  | cons c cs ih => simp only [floatKernels, floatKernel, ih, Option.map_some]

/-- After the candidates of a layer were put in order and filtered, the candidates of its quantizers in the measured
model are the same in the same order, unless the output is quantized
(or preserves a quantization) and there is a kernel that is not quantized. -/
theorem C150_indices (kernel : Option Name) (cs ds : List Cnd) (hs : cs.Pairwise (Above kernel))
    (h : filterCands kernel cs = some ds)
    (hk : kernel = none ∨ KernelQuantized kernel cs ∨ ∀ c ∈ cs, c.act.mode ≠ .quant ∧ c.act.mode ≠ .preserve) :
    sortCands kernel ds = some ds := by
  unfold filterCands at h
  cases hnk : noKernel kernel cs with
  | none => rw [hnk] at h; cases h
  | some nk =>
    rw [hnk] at h
    simp only at h
    cases cs with
    | nil => cases h
    | cons c cs =>
      cases hm : modeOf (c :: cs) with
      | none => rw [hm] at h; cases h
      | some m =>
        rw [hm] at h
        simp only at h
        have hmode := modeOf_some hm
        split at h
        · obtain ⟨d, hd, rfl⟩ := Option.map_eq_some_iff.mp h
          obtain ⟨-, -, -, hnone, hsome⟩ := floatKernel_spec hd
          refine sortCands_of_sorted (List.pairwise_singleton _ _) fun x hx => ?_
          rw [List.mem_singleton] at hx
          subst hx
          unfold sortKey
          cases kernel with
          | none => rfl
          | some k =>
            obtain ⟨key, w, -, -, -, hw, -⟩ := hsome k rfl
            simp only [hw]; rfl
        · have hsub : ∀ f : Cnd → Cnd → Bool, (dedupBy f (c :: cs) []).Pairwise (Above kernel) :=
            fun f => hs.sublist (dedupBy_sublist f _ [])
          split at h
          · refine filterDups_sorted ?_ h
            rw [List.pairwise_map]
            exact (hsub _).imp fun hab => floatAct_above hab
          · split at h
            · exact filterDups_sorted (hsub _) h
            · rename_i hn1 hn2
              have hquant : ¬ (m ≠ .quant ∧ m ≠ .preserve) := by
                cases m <;> simp at hn1 hn2 ⊢
              split at h
              · rename_i hnk1
                have hno : kernel = none := by
                  rcases hk with hk | hk | hk
                  · exact hk
                  · rw [← noKernel_some hnk] at hk
                    rw [hk] at hnk1; cases hnk1
                  · exact absurd (hmode c (by simp) ▸ hk c (by simp)) hquant
                subst hno
                rw [floatKernels_none] at h
                exact filterDups_sorted (hsub _) h
              · rename_i hnk1
                cases h
                have hnk2 : nk = false := by cases nk; rfl; exact absurd rfl hnk1
                obtain ⟨k, hk2⟩ : ∃ k, kernel = some k := by
                  cases kernel with
                  | none => simp [noKernel] at hnk; rw [← hnk] at hnk1; exact absurd rfl hnk1
                  | some k => exact ⟨k, rfl⟩
                subst hk2
                refine sortCands_of_sorted hs fun x hx => ?_
                unfold noKernel at hnk
                obtain ⟨r, hr, -⟩ := Option.map_eq_some_iff.mp hnk
                obtain ⟨w, hw⟩ := kernelEnabled_get hr x hx
                unfold sortKey
                simp only [hw]; rfl

/-- The number of a candidate in the search and in the measured model, for a layer the measured model can be built
with. -/
theorem C150_numbers (kernel : Option Name) (cs ds ms : List Cnd) (hs : cs.Pairwise (Above kernel))
    (h : filterCands kernel cs = some ds)
    (hk : kernel = none ∨ KernelQuantized kernel cs ∨ ∀ c ∈ cs, c.act.mode ≠ .quant ∧ c.act.mode ≠ .preserve)
    (hm : measuredCands kernel ds = some ms) (i : Nat) : ms[i]? = ds[i]? := by
  have h1 := C150_indices kernel cs ds hs h hk
  rcases C150_accepted kernel ds ds h1 with ⟨h2, -⟩ | ⟨h2, -⟩
  · rw [h2, Option.some.injEq] at hm; rw [hm]
  · rw [h2] at hm; cases hm

/-- A kernel of 8 or 4 bits in four candidates with an output of 8 or 4 bits: in order, all kept, all measured. -/
example : (filterCands (some ['k']) [sampleCnd 8 8 8 .quant, sampleCnd 8 8 4 .quant, sampleCnd 4 8 8 .quant]).bind
    (measuredCands (some ['k'])) =
    some [sampleCnd 8 8 8 .quant, sampleCnd 8 8 4 .quant, sampleCnd 4 8 8 .quant] := by decide +kernel

/-- A candidate whose kernel `k` is not quantized. -/
def plainCnd (kBits aBits : Nat) : Cnd :=
  ⟨⟨.uniform, .uniform, aBits, .quant, .auto⟩, ⟨some 32, [(['k'], ⟨.pot, kBits, true, false⟩)], []⟩⟩

/-- The numbers differ for a layer with a kernel that is not quantized: candidates in order of the bits of the kernel
stay in this order when the kernel is made float, and the measured model sorts them again, now by the output. -/
theorem C150_unsorted_violated : ∃ cs ds ms : List Cnd, cs.Pairwise (Above (some ['k'])) ∧
    filterCands (some ['k']) cs = some ds ∧ measuredCands (some ['k']) ds = some ms ∧
    ds.map (fun c => c.act.nBits) = [4, 8] ∧ ms.map (fun c => c.act.nBits) = [8, 4] := by
  have h : ∃ ds ms, filterCands (some ['k']) [plainCnd 8 4, plainCnd 4 8] = some ds ∧
      measuredCands (some ['k']) ds = some ms ∧
      ds.map (fun c => c.act.nBits) = [4, 8] ∧ ms.map (fun c => c.act.nBits) = [8, 4] :=
    ⟨[plainCnd 32 4, plainCnd 32 8], [plainCnd 32 8, plainCnd 32 4], by decide +kernel, by decide +kernel,
      by decide, by decide⟩
  obtain ⟨ds, ms, h⟩ := h
  refine ⟨_, ds, ms, ?_, h⟩
  simp only [List.pairwise_cons, List.mem_singleton, forall_eq, List.not_mem_nil, false_imp_iff, implies_true,
    List.Pairwise.nil, and_true]
  exact ⟨⟨.pot, 8, true, false⟩, ⟨.pot, 4, true, false⟩, by decide +kernel, by decide +kernel, Or.inl (by decide)⟩

/-- A quantized layer that offers two methods with the same bits for its kernel passes the loading and the filtering,
and the measured model is refused. -/
theorem C150_methods_violated (k : Name) (a b : Cnd) (hab : SameBits (some k) a b) (cs ds : List Cnd)
    (hin : List.Sublist [a, b] cs) (hs : sortCands (some k) cs = some ds)
    (hk : KernelQuantized (some k) ds) (hq : ∀ c ∈ ds, c.act.mode = .quant) :
    filterCands (some k) ds = some ds ∧ measuredCands (some k) ds = none := by
  have hperm := (sortCands_result hs).1
  have hsort : sortCands (some k) ds = some ds :=
    sortCands_of_sorted (sortCands_result hs).2 fun c hc => sortCands_keys hs c (hperm.subset hc)
  have hsym : ∀ {a b : Cnd}, ¬ SameBits (some k) a b → ¬ SameBits (some k) b a :=
    fun hab hba => hab ⟨hba.1.symm, fun k hk => (hba.2 k hk).symm⟩
  have hnot : ¬ ds.Pairwise (fun a b => ¬ SameBits (some k) a b) := by
    rw [hperm.pairwise_iff hsym]
    intro hp
    have := hp.sublist hin
    simp only [List.pairwise_cons, List.mem_singleton, forall_eq] at this
    exact this.1 hab
  constructor
  · unfold filterCands
    have hnk : noKernel (some k) ds = some false := by
      cases hn : noKernel (some k) ds with
      | some x => rw [(noKernel_some hn).mpr hk]
      | none =>
        unfold noKernel at hn
        simp only [Option.map_eq_none_iff] at hn
        exact absurd hn (kernelEnabled_ne_none fun c hc => by
          obtain ⟨k', hk', hw⟩ := hk
          cases hk'
          obtain ⟨w, hw, -⟩ := hw c hc
          exact ⟨w, hw⟩)
    have hmode : modeOf ds = some .quant := by
      cases ds with
      | nil => simp at hnot
      | cons c ds =>
        unfold modeOf
        simp only
        rw [hq c (by simp), if_pos]
        rw [List.all_eq_true]
        intro d hd
        exact decide_eq_true (hq d (by simp [hd]))
    rw [hnk, hmode]
    cases ds with
    | nil => simp at hnot
    | cons c ds => simp
  · rcases C150_accepted (some k) ds ds hsort with ⟨-, h⟩ | ⟨h, -⟩
    · exact absurd h hnot
    · exact h

/-- Such a layer: an 8-bit kernel quantized with powers of two or with any thresholds. -/
example : let a := sampleCnd 8 8 8 .quant
    let b : Cnd := ⟨a.act, ⟨some 32, [(['k'], ⟨.sym, 8, true, true⟩), (['b'], ⟨.pot, 8, true, true⟩)], []⟩⟩
    SameBits (some ['k']) a b ∧ sortCands (some ['k']) [a, b] = some [a, b] ∧
      filterCands (some ['k']) [a, b] = some [a, b] ∧ measuredCands (some ['k']) [a, b] = none := by
  refine ⟨⟨rfl, fun k hk => ?_⟩, ?_, ?_, ?_⟩
  · cases hk; decide +kernel
  all_goals decide +kernel

end MCT.Cand
