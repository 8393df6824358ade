/-
The candidates of the inner layers of fused operations (C85), and the filtering of candidates (C52).
-/
import Verif.Candidates.Load

namespace MCT.CandSpec
open MCT.Py MCT.Tpc MCT.Cand

/-- All candidates have the same weight attributes, each once. -/
def SameAttrs (cs : List Cnd) : Prop :=
  ∀ c ∈ cs, c.weights.named.keys.Nodup ∧ ∀ d ∈ cs, c.weights.named.keys = d.weights.named.keys

/-- The kernel of the layer exists and is quantized in all candidates. -/
def KernelQuantized (kernel : Option Name) (cs : List Cnd) : Prop :=
  ∃ k, kernel = some k ∧ ∀ c ∈ cs, ∃ w, c.weights.getAttr (.named k) = some w ∧ w.enabled = true

/-- Candidates with the same number of bits and method for the activation. -/
def SameActivation (c d : Cnd) : Prop := c.act.nBits = d.act.nBits ∧ c.act.method = d.act.method

/-- Candidates with the same number of bits and method for the kernel. -/
def SameKernel (k : Name) (c d : Cnd) : Prop :=
  ∃ x y, c.weights.getAttr (.named k) = some x ∧ d.weights.getAttr (.named k) = some y ∧
    x.nBits = y.nBits ∧ x.method = y.method

end MCT.CandSpec

namespace MCT.Cand
open MCT.Py MCT.Tpc MCT.CandSpec

set_option linter.unusedSectionVars false
set_option linter.unusedVariables false

theorem dictSame_refl {κ α : Type} [DecidableEq κ] [DecidableEq α] (d : Dict κ α) : dictSame d d = true := by
  simp [dictSame]

theorem wsame_refl (w : WCfg) : w.same w = true := by simp [WCfg.same, dictSame_refl]

theorem csame_refl (c : Cnd) : c.same c = true := by simp [Cnd.same, ActCfg.same, wsame_refl]

theorem dedupBy_acc {α : Type} (same : α → α → Bool) (l acc : List α) : ∀ u ∈ acc, u ∈ dedupBy same l acc := by
  induction l generalizing acc with
  | nil => exact fun u h => h
  | cons c cs ih =>
    intro u hu
    simp only [dedupBy]
    split
    · exact ih _ u hu
    · exact ih _ u (List.mem_append_left _ hu)

theorem dedupBy_rep {α : Type} (same : α → α → Bool) (hr : ∀ a, same a a = true) (l acc : List α) :
    ∀ c ∈ l, ∃ u ∈ dedupBy same l acc, same c u = true := by
  induction l generalizing acc with
  | nil => simp
  | cons c cs ih =>
    intro x hx
    simp only [dedupBy]
    rcases List.mem_cons.mp hx with hx | hx
    · subst hx
      split
      · rename_i h
        rw [List.any_eq_true] at h
        obtain ⟨u, h1, h2⟩ := h
        exact ⟨u, dedupBy_acc same cs acc u h1, h2⟩
      · exact ⟨x, dedupBy_acc same cs _ x (by simp), hr x⟩
    · split
      · exact ih _ x hx
      · exact ih _ x hx

theorem dedupBy_mem {α : Type} (same : α → α → Bool) (l acc : List α) :
    ∀ u ∈ dedupBy same l acc, u ∈ acc ∨ u ∈ l := by
  induction l generalizing acc with
  | nil => exact fun u h => Or.inl h
  | cons c cs ih =>
    intro u hu
    simp only [dedupBy] at hu
    split at hu
    · rcases ih _ u hu with h | h
      · exact Or.inl h
      · exact Or.inr (by simp [h])
    · rcases ih _ u hu with h | h
      · rcases List.mem_append.mp h with h | h
        · exact Or.inl h
        · exact Or.inr (by simp at h; simp [h])
      · exact Or.inr (by simp [h])

theorem dedupBy_pairwise {α : Type} (same : α → α → Bool) (l acc : List α)
    (h : acc.Pairwise (fun a b => same b a = false)) :
    (dedupBy same l acc).Pairwise (fun a b => same b a = false) := by
  induction l generalizing acc with
  | nil => exact h
  | cons c cs ih =>
    simp only [dedupBy]
    split
    · exact ih _ h
    · rename_i hn
      apply ih
      rw [List.pairwise_append]
      refine ⟨h, by simp, ?_⟩
      intro a ha b hb
      simp only [List.mem_singleton] at hb
      subst hb
      by_contra hh
      exact hn (List.any_eq_true.mpr ⟨a, ha, by simpa using hh⟩)

/-! ### Fused layers -/

theorem fusedAct_result {f : OpCfg Name} {c d : Cnd} (h : fusedAct f c = some d) :
    d.weights = c.weights ∧ d.act.mode = .flnQuant ∧ d.act.nBits = f.actBits ∧ d.act.method = f.actMethod ∧
      d.act.signedness = f.signedness ∧ d.act.fnMethod = c.act.fnMethod := by
  unfold fusedAct mkAct at h
  split at h
  · simp at h
  · rename_i a ha
    split at ha
    · simp at ha
    · simp only [Option.some.injEq] at ha h
      subst ha; subst h
      exact ⟨rfl, rfl, rfl, rfl, rfl, rfl⟩

theorem fusedActs_forall {f : OpCfg Name} {cs ds : List Cnd} (h : fusedActs f cs = some ds) :
    List.Forall₂ (fun c d => fusedAct f c = some d) cs ds := by
  induction cs generalizing ds with
  | nil => simp only [fusedActs, Option.some.injEq] at h; subst h; exact List.Forall₂.nil
  | cons n ns ih =>
    simp only [fusedActs] at h
    cases hc : fusedAct f n with
    | none => rw [hc] at h; simp at h
    | some b =>
      rw [hc] at h
      simp only [Option.map_eq_some_iff] at h
      obtain ⟨r, h1, h2⟩ := h
      subst h2
      exact List.Forall₂.cons hc (ih h1)

/-- C85.  After loading a fused operation with a quantized activation, every candidate of an inner layer has
the activation settings of the fused operation, and the weight settings of the candidates are kept. -/
theorem C85_quantized (f : OpCfg Name) (hf : f.enableAct = true) (c c' : NodeCfg)
    (h : overrideFused (some f) c = some c') :
    (∀ d ∈ c'.base :: c'.cands, d.act.mode = .flnQuant ∧ d.act.nBits = f.actBits ∧
      d.act.method = f.actMethod ∧ d.act.signedness = f.signedness) ∧
    c'.base.weights = c.base.weights ∧
    (∀ d ∈ c.cands, ∃ d' ∈ c'.cands, d.weights.same d'.weights = true) ∧
    (∀ d' ∈ c'.cands, ∃ d ∈ c.cands, d'.weights = d.weights) ∧
    c'.cands.Pairwise (fun a b => b.same a = false) := by
  unfold overrideFused at h
  have : (some f).filter (fun x => x.enableAct) = some f := by simp [Option.filter, hf]
  rw [this] at h
  simp only at h
  cases hb : fusedAct f c.base with
  | none => rw [hb] at h; simp at h
  | some b =>
    rw [hb] at h
    simp only [Option.map_eq_some_iff] at h
    obtain ⟨cs, h1, h2⟩ := h
    subst h2
    have hall := fusedActs_forall h1
    obtain ⟨b1, b2, b3, b4, b5, _⟩ := fusedAct_result hb
    have hsub : ∀ d ∈ dedupBy Cnd.same cs [], d ∈ cs := by
      intro d hd
      rcases dedupBy_mem Cnd.same cs [] d hd with h | h
      · simp at h
      · exact h
    refine ⟨?_, b1, ?_, ?_, dedupBy_pairwise Cnd.same cs [] (by simp)⟩
    · intro d hd
      rcases List.mem_cons.mp hd with hd | hd
      · rw [hd]; exact ⟨b2, b3, b4, b5⟩
      · obtain ⟨x, _, hx⟩ := forall2_right hall (hsub d hd)
        obtain ⟨_, e2, e3, e4, e5, _⟩ := fusedAct_result hx
        exact ⟨e2, e3, e4, e5⟩
    · intro d hd
      obtain ⟨x, hx, hxd⟩ := forall2_left hall hd
      obtain ⟨u, hu, hs⟩ := dedupBy_rep Cnd.same csame_refl cs [] x hx
      refine ⟨u, hu, ?_⟩
      unfold Cnd.same at hs
      rw [Bool.and_eq_true] at hs
      rw [← (fusedAct_result hxd).1]
      exact hs.2
    · intro d' hd'
      obtain ⟨x, hx, hxd⟩ := forall2_right hall (hsub d' hd')
      exact ⟨x, hx, (fusedAct_result hxd).1⟩

/-- C85.  After loading a fused operation without a quantized activation, the output of an inner layer is not
quantized in any candidate, each of its weight settings is kept, and each only once. -/
theorem C85_unquantized (f : Option (OpCfg Name)) (hf : ∀ x, f = some x → x.enableAct = false) (c : NodeCfg) :
    ∃ c', overrideFused f c = some c' ∧
    (∀ d ∈ c'.base :: c'.cands, d.act.mode = .flnNoQuant) ∧
    c'.base.weights = c.base.weights ∧
    (∀ d ∈ c.cands, ∃ d' ∈ c'.cands, d.weights.same d'.weights = true) ∧
    (∀ d' ∈ c'.cands, ∃ d ∈ c.cands, d'.weights = d.weights) ∧
    c'.cands.Pairwise (fun a b => b.weights.same a.weights = false) := by
  have hn : f.filter (fun x => x.enableAct) = none := by
    cases f with
    | none => rfl
    | some x => simp [Option.filter, hf x rfl]
  unfold overrideFused
  rw [hn]
  refine ⟨_, rfl, ?_, rfl, ?_, ?_, ?_⟩
  · intro d hd
    rcases List.mem_cons.mp hd with hd | hd
    · rw [hd]; rfl
    · rcases dedupBy_mem _ _ _ d hd with h | h
      · simp at h
      · obtain ⟨x, _, e⟩ := List.mem_map.mp h
        rw [← e]; rfl
  · intro d hd
    obtain ⟨u, hu, hs⟩ := dedupBy_rep (fun x y : Cnd => x.weights.same y.weights)
      (fun a => wsame_refl _) (c.setMode .flnNoQuant).cands [] (d.setMode .flnNoQuant)
      (List.mem_map.mpr ⟨d, hd, rfl⟩)
    exact ⟨u, hu, hs⟩
  · intro d' hd'
    rcases dedupBy_mem _ _ _ d' hd' with h | h
    · simp at h
    · obtain ⟨x, hx, e⟩ := List.mem_map.mp h
      exact ⟨x, hx, by rw [← e]; rfl⟩
  · exact dedupBy_pairwise _ _ _ (by simp)

/-- A candidate with 8 bits for the kernel `k` and the bias `b`. -/
def sampleCnd (kBits bBits aBits : Nat) (m : Mode) : Cnd :=
  ⟨⟨.uniform, .uniform, aBits, m, .auto⟩,
    ⟨some 32, [(['k'], ⟨.pot, kBits, true, true⟩), (['b'], ⟨.pot, bBits, true, true⟩)], []⟩⟩

/-- C85 is false of the functions: an inner layer of a quantized fused operation keeps the quantization
function of its former method, although its method is now that of the fused operation. -/
theorem C85_function_violated : (overrideFused (some (sampleOp 8 [8] true false))
      ⟨sampleCnd 8 8 8 .quant, [sampleCnd 8 8 8 .quant]⟩).map
        (fun c => c.cands.map (fun d => (d.act.method, d.act.fnMethod))) = some [(.pot, .uniform)] := by
  decide +kernel

example : (overrideFused none ⟨sampleCnd 8 8 8 .quant,
    [sampleCnd 8 8 8 .quant, sampleCnd 8 8 4 .quant, sampleCnd 4 8 8 .quant]⟩).map (fun c => c.cands.length) =
    some 2 := by decide +kernel

/-! ### Filtering candidates -/

theorem combOf_some {kernel : Option Name} {c : Cnd} {x : Comb} (h : combOf kernel c = some x) :
    x.bits = c.act.nBits ∧ x.method = c.act.method ∧
    ∀ k, kernel = some k → ∃ w, c.weights.getAttr (.named k) = some w ∧ x.kernel = some (w.nBits, w.method) := by
  unfold combOf at h
  cases kernel with
  | none => simp only [Option.some.injEq] at h; subst h; simp
  | some k =>
    simp only at h
    cases hw : c.weights.getAttr (.named k) with
    | none => rw [hw] at h; simp at h
    | some w =>
      rw [hw] at h
      simp only [Option.some.injEq] at h
      subst h
      refine ⟨rfl, rfl, ?_⟩
      intro k' hk'
      simp only [Option.some.injEq] at hk'
      subst hk'
      exact ⟨w, hw, rfl⟩

theorem filterDups_result {kernel : Option Name} {cs ds : List Cnd} {seen : List Comb}
    (h : filterDups kernel cs seen = some ds) :
    (∀ d ∈ ds, d ∈ cs) ∧
    ∀ c ∈ cs, ∃ x, combOf kernel c = some x ∧ (x ∈ seen ∨ ∃ d ∈ ds, combOf kernel d = some x) := by
  induction cs generalizing ds seen with
  | nil => simp only [filterDups, Option.some.injEq] at h; subst h; simp
  | cons c cs ih =>
    simp only [filterDups] at h
    cases hk : combOf kernel c with
    | none => rw [hk] at h; simp at h
    | some k =>
      rw [hk] at h
      simp only at h
      split at h
      · rename_i hs
        obtain ⟨h1, h2⟩ := ih h
        refine ⟨fun d hd => by simp [h1 d hd], ?_⟩
        intro x hx
        rcases List.mem_cons.mp hx with hx | hx
        · subst hx; exact ⟨k, hk, Or.inl hs⟩
        · exact h2 x hx
      · simp only [Option.map_eq_some_iff] at h
        obtain ⟨r, h1, h2⟩ := h
        subst h2
        obtain ⟨i1, i2⟩ := ih h1
        refine ⟨?_, ?_⟩
        · intro d hd
          rcases List.mem_cons.mp hd with hd | hd
          · subst hd; simp
          · simp [i1 d hd]
        · intro x hx
          rcases List.mem_cons.mp hx with hx | hx
          · subst hx; exact ⟨k, hk, Or.inr ⟨x, by simp, hk⟩⟩
          · obtain ⟨y, hy, hy'⟩ := i2 x hx
            refine ⟨y, hy, ?_⟩
            rcases hy' with hy' | ⟨d, hd, hdy⟩
            · rcases List.mem_cons.mp hy' with e | hy'
              · subst e; exact Or.inr ⟨c, by simp, hk⟩
              · exact Or.inl hy'
            · exact Or.inr ⟨d, by simp [hd], hdy⟩

theorem filterDups_rep {kernel : Option Name} {cs ds : List Cnd} (h : filterDups kernel cs [] = some ds) :
    ∀ c ∈ cs, ∃ d ∈ ds, SameActivation c d ∧ ∀ k, kernel = some k → SameKernel k c d := by
  intro c hc
  obtain ⟨x, hx, hx'⟩ := (filterDups_result h).2 c hc
  rcases hx' with hx' | ⟨d, hd, hdx⟩
  · simp at hx'
  · obtain ⟨a1, a2, a3⟩ := combOf_some hx
    obtain ⟨b1, b2, b3⟩ := combOf_some hdx
    refine ⟨d, hd, ⟨a1.symm.trans b1, a2.symm.trans b2⟩, ?_⟩
    intro k hk
    obtain ⟨w, e1, e2⟩ := a3 k hk
    obtain ⟨w', f1, f2⟩ := b3 k hk
    rw [e2] at f2
    simp only [Option.some.injEq, Prod.mk.injEq] at f2
    exact ⟨w, w', e1, f1, f2.1, f2.2⟩

theorem dict_ext {κ α : Type} [DecidableEq κ] {d e : Dict κ α} (hk : d.keys = e.keys) (hn : d.keys.Nodup)
    (hg : ∀ k ∈ d.keys, d.get k = e.get k) : d = e := by
  induction d generalizing e with
  | nil =>
    cases e with
    | nil => rfl
    | cons q e => simp [Dict.keys] at hk
  | cons p d ih =>
    cases e with
    | nil => simp [Dict.keys] at hk
    | cons q e =>
      simp only [Dict.keys, List.map_cons, List.cons.injEq] at hk
      simp only [Dict.keys, List.map_cons, List.nodup_cons] at hn
      have h1 := hg p.1 (by simp [Dict.keys])
      rw [Dict.get_cons, Dict.get_cons, if_pos rfl, if_pos hk.1.symm] at h1
      simp only [Option.some.injEq] at h1
      have hpq : p = q := Prod.ext hk.1 h1
      subst hpq
      have : d = e := by
        apply ih hk.2 hn.2
        intro k hk'
        have := hg k (by simp only [Dict.keys, List.map_cons, List.mem_cons]; exact Or.inr hk')
        rw [Dict.get_cons, Dict.get_cons] at this
        have hne : p.1 ≠ k := fun hh => hn.1 (hh ▸ hk')
        rw [if_neg hne, if_neg hne] at this
        exact this
      rw [this]

theorem same_named {cs : List Cnd} (hs : SameAttrs cs) {c d : Cnd} (hc : c ∈ cs) (hd : d ∈ cs)
    (h : c.weights.same d.weights = true) : c.weights.named = d.weights.named := by
  unfold WCfg.same at h
  simp only [Bool.and_eq_true] at h
  obtain ⟨⟨_, h⟩, _⟩ := h
  unfold dictSame at h
  rw [Bool.and_eq_true, List.all_eq_true] at h
  exact dict_ext ((hs c hc).2 d hd) (hs c hc).1 (fun k hk => of_decide_eq_true (h.1 k hk))

theorem modeOf_some {cs : List Cnd} {m : Mode} (h : modeOf cs = some m) : ∀ c ∈ cs, c.act.mode = m := by
  unfold modeOf at h
  cases cs with
  | nil => simp at h
  | cons c rest =>
    simp only at h
    split at h
    · rename_i ha
      simp only [Option.some.injEq] at h
      subst h
      intro d hd
      rcases List.mem_cons.mp hd with hd | hd
      · rw [hd]
      · rw [List.all_eq_true] at ha
        exact of_decide_eq_true (ha d hd)
    · simp at h

theorem kernelEnabled_some {k : Name} {cs : List Cnd} {b : Bool} (h : kernelEnabled k cs = some b) :
    b = true ↔ ∀ c ∈ cs, ∃ w, c.weights.getAttr (.named k) = some w ∧ w.enabled = true := by
  induction cs generalizing b with
  | nil => simp only [kernelEnabled, Option.some.injEq] at h; subst h; simp
  | cons c cs ih =>
    simp only [kernelEnabled] at h
    cases hw : c.weights.getAttr (.named k) with
    | none => rw [hw] at h; simp at h
    | some w =>
      rw [hw] at h
      simp only [Option.map_eq_some_iff] at h
      obtain ⟨r, h1, h2⟩ := h
      subst h2
      rw [Bool.and_eq_true, ih h1]
      constructor
      · rintro ⟨e1, e2⟩ x hx
        rcases List.mem_cons.mp hx with hx | hx
        · subst hx; exact ⟨w, hw, e1⟩
        · exact e2 x hx
      · intro hall
        obtain ⟨w', e1, e2⟩ := hall c (by simp)
        rw [hw] at e1
        simp only [Option.some.injEq] at e1
        subst e1
        exact ⟨e2, fun x hx => hall x (by simp [hx])⟩

theorem noKernel_some {kernel : Option Name} {cs : List Cnd} {b : Bool} (h : noKernel kernel cs = some b) :
    b = false ↔ KernelQuantized kernel cs := by
  unfold noKernel at h
  unfold KernelQuantized
  cases kernel with
  | none => simp only [Option.some.injEq] at h; subst h; simp
  | some k =>
    simp only [Option.map_eq_some_iff] at h
    obtain ⟨r, h1, h2⟩ := h
    subst h2
    rw [Bool.not_eq_false', kernelEnabled_some h1]
    constructor
    · intro hh; exact ⟨k, rfl, hh⟩
    · rintro ⟨k', e, hh⟩
      simp only [Option.some.injEq] at e
      subst e; exact hh

theorem floatKernel_act {kernel : Option Name} {c d : Cnd} (h : floatKernel kernel c = some d) : d.act = c.act := by
  unfold floatKernel at h
  cases kernel with
  | none => simp only [Option.some.injEq] at h; rw [← h]
  | some k =>
    simp only at h
    split at h
    · simp at h
    · simp only [Option.some.injEq] at h; rw [← h]
    · split at h
      · simp only [Option.some.injEq] at h; rw [← h]
      · simp at h

theorem floatKernels_forall {kernel : Option Name} {cs ds : List Cnd} (h : floatKernels kernel cs = some ds) :
    List.Forall₂ (fun c d => floatKernel kernel c = some d) cs ds := by
  induction cs generalizing ds with
  | nil => simp only [floatKernels, Option.some.injEq] at h; subst h; exact List.Forall₂.nil
  | cons n ns ih =>
    simp only [floatKernels] at h
    cases hc : floatKernel kernel n with
    | none => rw [hc] at h; simp at h
    | some b =>
      rw [hc] at h
      simp only [Option.map_eq_some_iff] at h
      obtain ⟨r, h1, h2⟩ := h
      subst h2
      exact List.Forall₂.cons hc (ih h1)

theorem kernel_of_named {c d : Cnd} (h : c.weights.named = d.weights.named) (k : Name) :
    c.weights.getAttr (.named k) = d.weights.getAttr (.named k) := by
  unfold WCfg.getAttr
  simp only [h]

/-- C52 (partial).  Every candidate is represented among the candidates kept: when the layer quantizes its
output or preserves quantization, by one with the same activation bits and method; when its kernel is
quantized, by one with the same kernel bits and method.  Missing: the other settings that are still quantized
can be lost (`C52_bias_violated`, `C52_signedness_violated`, `C52_positional_violated`). -/
theorem C52_represented_partial (kernel : Option Name) (cs ds : List Cnd) (hs : SameAttrs cs)
    (h : filterCands kernel cs = some ds) :
    ∀ c ∈ cs, ∃ d ∈ ds,
      ((c.act.mode = .quant ∨ c.act.mode = .preserve) → SameActivation c d) ∧
      (KernelQuantized kernel cs → ∀ k, kernel = some k → SameKernel k c d) := by
  unfold filterCands at h
  cases hnk : noKernel kernel cs with
  | none => rw [hnk] at h; simp at h
  | some nk =>
    rw [hnk] at h
    have hk := noKernel_some hnk
    simp only at h
    cases hcs : cs with
    | nil => intro c hc; simp at hc
    | cons c0 rest =>
      rw [← hcs]
      cases hm : modeOf cs with
      | none => rw [hm, hcs] at h; simp at h
      | some m =>
        have hmode := modeOf_some hm
        rw [hm] at h
        have hunf : ∀ {P : Prop}, (∀ c0 rest, cs = c0 :: rest → P) → P := fun f => f c0 rest hcs
        rw [hcs] at h
        simp only at h
        rw [← hcs] at h
        have dedupW : ∀ c ∈ cs, ∃ u ∈ dedupBy (fun x y : Cnd => x.weights.same y.weights) cs [],
            c.weights.named = u.weights.named := by
          intro c hc
          obtain ⟨u, hu, hsame⟩ := dedupBy_rep (fun x y : Cnd => x.weights.same y.weights)
            (fun a => wsame_refl _) cs [] c hc
          have hucs : u ∈ cs := by
            rcases dedupBy_mem _ _ _ u hu with h | h
            · simp at h
            · exact h
          exact ⟨u, hu, same_named hs hc hucs hsame⟩
        split at h
        · rename_i hcond
          rw [Bool.and_eq_true, decide_eq_true_iff] at hcond
          obtain ⟨hnkt, hmn⟩ := hcond
          simp only [Option.map_eq_some_iff] at h
          obtain ⟨d, h1, h2⟩ := h
          subst h2
          intro c hc
          refine ⟨d, by simp, ?_, ?_⟩
          · intro hq
            rw [hmode c hc, hmn] at hq
            simp at hq
          · intro hkq
            rw [← hk, hnkt] at hkq
            simp at hkq
        · split at h
          · rename_i hmn
            intro c hc
            obtain ⟨u, hu, hn⟩ := dedupW c hc
            obtain ⟨d, hd, _, hkd⟩ := filterDups_rep h (floatAct u) (List.mem_map.mpr ⟨u, hu, rfl⟩)
            refine ⟨d, hd, ?_, ?_⟩
            · intro hq
              rw [hmode c hc, hmn] at hq
              simp at hq
            · intro _ k hkk
              obtain ⟨x, y, e1, e2, e3, e4⟩ := hkd k hkk
              exact ⟨x, y, by rw [kernel_of_named hn]; exact e1, e2, e3, e4⟩
          · split at h
            · rename_i hmf
              intro c hc
              obtain ⟨u, hu, hn⟩ := dedupW c hc
              obtain ⟨d, hd, _, hkd⟩ := filterDups_rep h u hu
              refine ⟨d, hd, ?_, ?_⟩
              · intro hq
                rw [hmode c hc] at hq
                rcases hmf with e | e <;> rw [e] at hq <;> simp at hq
              · intro _ k hkk
                obtain ⟨x, y, e1, e2, e3, e4⟩ := hkd k hkk
                exact ⟨x, y, by rw [kernel_of_named hn]; exact e1, e2, e3, e4⟩
            · split at h
              · rename_i hnkt
                cases hfk : floatKernels kernel (dedupBy (fun x y : Cnd => x.act.same y.act) cs []) with
                | none => rw [hfk] at h; simp at h
                | some es =>
                  rw [hfk] at h
                  simp only at h
                  have hall := floatKernels_forall hfk
                  intro c hc
                  obtain ⟨u, hu, hsame⟩ := dedupBy_rep (fun x y : Cnd => x.act.same y.act)
                    (fun a => by simp [ActCfg.same]) cs [] c hc
                  obtain ⟨e, he, hue⟩ := forall2_left hall hu
                  obtain ⟨d, hd, hact, _⟩ := filterDups_rep h e he
                  refine ⟨d, hd, ?_, ?_⟩
                  · intro _
                    simp only [ActCfg.same, Bool.and_eq_true, beq_iff_eq] at hsame
                    obtain ⟨a1, a2⟩ := hact
                    rw [floatKernel_act hue] at a1 a2
                    exact ⟨hsame.1.2.trans a1, hsame.1.1.2.trans a2⟩
                  · intro hkq
                    rw [← hk, hnkt] at hkq
                    simp at hkq
              · simp only [Option.some.injEq] at h
                subst h
                intro c hc
                refine ⟨c, hc, fun _ => ⟨rfl, rfl⟩, ?_⟩
                rintro ⟨k', e, hall⟩ k hkk
                rw [e] at hkk
                simp only [Option.some.injEq] at hkk
                subst hkk
                obtain ⟨w, hw, _⟩ := hall c hc
                exact ⟨w, w, hw, hw, rfl, rfl⟩

/-- C52.  The filter never empties the candidates, and a layer whose output and kernel are both quantized
keeps all of them. -/
theorem C52_nonempty (kernel : Option Name) (cs ds : List Cnd) (hs : SameAttrs cs)
    (h : filterCands kernel cs = some ds) :
    ds ≠ [] ∧ ((∃ c ∈ cs, c.act.mode = .quant) → KernelQuantized kernel cs → ds = cs) := by
  constructor
  · have hne : cs ≠ [] := by
      intro he
      subst he
      unfold filterCands at h
      split at h <;> simp at h
    cases cs with
    | nil => exact absurd rfl hne
    | cons c rest =>
      obtain ⟨d, hd, _⟩ := C52_represented_partial kernel _ ds hs h c (by simp)
      intro he
      rw [he] at hd
      simp at hd
  · rintro ⟨c, hc, hq⟩ hkq
    unfold filterCands at h
    cases hnk : noKernel kernel cs with
    | none => rw [hnk] at h; simp at h
    | some nk =>
      have hk := noKernel_some hnk
      have hnkf := hk.mpr hkq
      subst hnkf
      rw [hnk] at h
      simp only at h
      cases hcs : cs with
      | nil => rw [hcs] at hc; simp at hc
      | cons c0 rest =>
        rw [← hcs]
        cases hm : modeOf cs with
        | none => rw [hm, hcs] at h; simp at h
        | some m =>
          have hmq := (modeOf_some hm c hc).symm.trans hq
          subst hmq
          rw [hm, hcs] at h
          simp only [Bool.false_and, Bool.false_eq_true, if_false, reduceCtorEq, or_self,
            Option.some.injEq] at h
          rw [hcs]; exact h.symm

/-- C52 is false of the code: for a layer with an unquantized output, candidates that differ in the bits of a
quantized bias are merged. -/
theorem C52_bias_violated :
    filterCands (some ['k']) [sampleCnd 8 8 8 .noQuant, sampleCnd 8 4 8 .noQuant] =
      some [floatAct (sampleCnd 8 8 8 .noQuant)] := by decide +kernel

/-- C52 is false of the code: for a layer without a quantized kernel, candidates that differ in the
signedness of the quantized activation are merged. -/
theorem C52_signedness_violated :
    (filterCands none [⟨⟨.pot, .pot, 8, .quant, .signed⟩, ⟨none, [], []⟩⟩,
      ⟨⟨.pot, .pot, 8, .quant, .unsigned⟩, ⟨none, [], []⟩⟩]).map (fun ds => ds.map (fun d => d.act.signedness)) =
      some [.signed] := by decide +kernel

/-- C52 is false of the code: candidates that differ in the bits of a quantized positional weight are merged. -/
theorem C52_positional_violated :
    (filterCands none [⟨⟨.pot, .pot, 8, .quant, .auto⟩, ⟨none, [], [(0, ⟨.pot, 8, true, true⟩)]⟩⟩,
      ⟨⟨.pot, .pot, 8, .quant, .auto⟩, ⟨none, [], [(0, ⟨.pot, 4, true, true⟩)]⟩⟩]).map (fun ds => ds.length) =
      some 1 := by decide +kernel

example : (filterCands (some ['k']) [sampleCnd 8 8 8 .noQuant, sampleCnd 4 8 8 .noQuant,
    sampleCnd 8 8 4 .noQuant]).map (fun ds => ds.length) = some 2 := by decide +kernel
example : SameAttrs [sampleCnd 8 8 8 .noQuant, sampleCnd 4 8 8 .noQuant] := by
  intro c hc
  simp only [List.mem_cons, List.not_mem_nil, or_false] at hc
  rcases hc with rfl | rfl
  all_goals
    refine ⟨by decide, ?_⟩
    intro d hd
    simp only [List.mem_cons, List.not_mem_nil, or_false] at hd
    rcases hd with rfl | rfl <;> rfl
example : KernelQuantized (some ['k']) [sampleCnd 8 8 8 .quant] :=
  ⟨_, rfl, by intro c hc; simp only [List.mem_singleton] at hc; subst hc; exact ⟨_, rfl, rfl⟩⟩

end MCT.Cand
