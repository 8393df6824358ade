import Verif.Sens.Props
import Verif.MP.Bits

/-! # The sensitivities of a network, and the filter of the candidates before the search -/

namespace MCT.Sens

open MCT.MP

set_option linter.unusedSimpArgs false
set_option linter.unusedVariables false

variable {K : Type}

/-! ### The measuring loop -/

theorem measure_eq (m : EvalModel) (metric : State → Option K) (g : Call → Option K) :
    ∀ (cs : List Call), (∀ c ∈ cs, evaluate m metric c.order c.order' c.a c.w off = (g c, off)) →
      measure m metric cs off = (cs.mapM g, off) := by
  intro cs
  induction cs with
  | nil => intro _; rfl
  | cons c cs ih =>
    intro h
    simp only [measure, h c (by simp)]
    rw [List.mapM_cons]
    rcases g c with _ | v
    · rfl
    · simp only []
      rw [ih fun c' h' => h c' (by simp [h'])]
      rcases cs.mapM g with _ | vs <;> rfl

/-- The call made for a candidate. -/
def callOf (net : Net) (p : ℕ × ℕ) : Call :=
  match net.nodes[p.1]? with
  | none => ⟨[], [], [p.1], [p.1]⟩
  | some n => ⟨(request n p.1 p.2).1, (request n p.1 p.2).2, [p.1], [p.1]⟩

theorem searchCalls_eq (net : Net) : searchCalls net = (allCandidates net).map (callOf net) := by
  unfold searchCalls allCandidates
  rw [List.map_flatMap]
  congr 1
  funext i
  unfold nodeCalls ncands
  rcases h : net.nodes[i]? with _ | n
  · simp [h]
  · simp only [h, List.map_map]
    apply List.map_congr_left
    intro c _
    simp [callOf, h]

theorem mapM_map' {α β : Type} (f : α → β) (g : β → Option K) (l : List α) :
    (l.map f).mapM g = l.mapM fun x => g (f x) := by
  induction l with
  | nil => rfl
  | cons a l ih => rw [List.map_cons, List.mapM_cons, List.mapM_cons, ih]

theorem mapM_congr' {α : Type} {f g : α → Option K} {l : List α} (h : ∀ x ∈ l, f x = g x) :
    l.mapM f = l.mapM g := by
  induction l with
  | nil => rfl
  | cons a l ih =>
    rw [List.mapM_cons, List.mapM_cons, h a (by simp), ih fun x hx => h x (by simp [hx])]

theorem mem_allCandidates {net : Net} {i c : ℕ} (h : (i, c) ∈ allCandidates net) :
    ∃ n, net.nodes[i]? = some n ∧ n.conf = true ∧ c < n.cands.length := by
  unfold allCandidates at h
  rw [List.mem_flatMap] at h
  obtain ⟨j, hj, h⟩ := h
  rw [List.mem_map] at h
  obtain ⟨c', hc', e⟩ := h
  cases e
  unfold Net.confNodes at hj
  rw [List.mem_filter] at hj
  rcases hn : net.nodes[i]? with _ | n
  · rw [hn] at hj; simp at hj
  · rw [hn] at hj
    refine ⟨n, rfl, hj.2, ?_⟩
    rw [List.mem_range] at hc'
    simpa [ncands, hn] using hc'

theorem confWeight_lt {n : Node} {k : ℕ} (h : n.confWeight k = true) : k < n.attrs.length := by
  unfold Node.confWeight at h
  by_contra hk
  rw [List.getElem?_eq_none (by omega)] at h
  simp at h

theorem anyConf_of_kernelConf {n : Node} (h : kernelConf n = true) : n.anyConfWeight = true := by
  unfold kernelConf at h
  rcases hk : n.kernel with _ | k
  · rw [hk] at h; simp at h
  · rw [hk] at h
    unfold Node.anyConfWeight
    rw [List.any_eq_true]
    exact ⟨k, List.mem_range.mpr (confWeight_lt h), h⟩

theorem kernelConf_of_confKernel {n : Node} (h : n.confKernel = true) :
    kernelConf n = true ∧ n.reuse = false := by
  unfold Node.confKernel at h
  unfold kernelConf
  rcases hk : n.kernel with _ | k
  · rw [hk] at h; simp at h
  · rw [hk] at h
    simpa using h

theorem kernelOn_of_kernelConf {n : Node} (h : kernelConf n = true) : kernelOn n = true := by
  have ha := anyConf_of_kernelConf h
  unfold kernelConf at h
  unfold kernelOn
  rcases hk : n.kernel with _ | k
  · rw [hk] at h; simp at h
  · rw [hk] at h
    simp only at h ⊢
    rw [ha]
    unfold Node.confWeight at h
    rcases hat : n.attrs[k]? with _ | p
    · rw [hat] at h; simp at h
    · rw [hat] at h
      simp only [Bool.and_eq_true] at h
      simp [h.1]

theorem wrapperError_false {net : Net} (h : OnlyKernels net) : wrapperError net = false := by
  unfold wrapperError
  rw [List.any_eq_false]
  intro n hn hc
  simp only [Bool.and_eq_true, Bool.not_eq_true', ] at hc
  have : n.anyConfWeight = true := by
    have := hc.1.2
    unfold kernelOn at this
    rcases hk : n.kernel with _ | k
    · rw [hk] at this; simp at this
    · rw [hk] at this
      simp only [Bool.and_eq_true] at this
      exact this.2
  rw [h n hn this] at hc
  simp at hc

/-- What the measuring loop needs of the model of a framework: for the node `i`, the layers found for
its name contain, first of their kind, the quantizers it needs. -/
structure Serves (net : Net) (m : EvalModel) : Prop where
  separate : Separate m
  ncand : ∀ l, m.ncand l = ncands net l
  act : ∀ i n, net.nodes[i]? = some n → n.conf = true → n.confAct = true →
    Addressed m .act i (i, .act)
  wts : ∀ i n, net.nodes[i]? = some n → n.conf = true → n.anyConfWeight = true →
    Addressed m .wts i (i, .wts)

theorem addressed_unique {m : EvalModel} {k : Kind} {n : ℕ} {l l' : Layer} (h : Addressed m k n l)
    (h' : Addressed m k n l') : l = l' := by
  rw [addressed_iff] at h h'
  rw [h] at h'
  exact Option.some.inj h'

theorem goodCall {net : Net} {m : EvalModel} (hm : Serves net m) {i c : ℕ}
    (h : (i, c) ∈ allCandidates net) : GoodCall m (callOf net (i, c)) := by
  obtain ⟨n, hn, hconf, hc⟩ := mem_allCandidates h
  have hcall : callOf net (i, c) = ⟨(request n i c).1, (request n i c).2, [i], [i]⟩ := by
    simp [callOf, hn]
  rw [hcall]
  have hany : n.confAct = true ∨ n.anyConfWeight = true := by
    unfold Node.conf at hconf
    rw [Bool.or_eq_true] at hconf
    rcases hconf with h | h
    · exact Or.inl h
    · exact Or.inr (anyConf_of_kernelConf (kernelConf_of_confKernel h).1)
  have hord : IsOrder (request n i c).1 (request n i c).2 [i] := by
    refine ⟨by simp, ?_⟩
    intro j
    unfold request Cfg.keys
    rcases hany with h | h <;> simp only [h, if_true] <;> split <;> simp
  refine ⟨?_, ?_, ?_, hord, hord, ?_, ?_⟩
  · simp only [request, requestsSomething]
    rcases hany with h | h <;> simp [h]
  · simp only [request, Cfg.keys]; split <;> simp
  · simp only [request, Cfg.keys]; split <;> simp
  · intro j v hv
    simp only [request] at hv
    split at hv
    · rename_i ha
      simp only [List.mem_singleton, Prod.mk.injEq] at hv
      obtain ⟨e1, e2⟩ := hv
      subst e1; subst e2
      refine ⟨(j, .act), hm.act j n hn hconf ha, ?_⟩
      intro c' hc'
      rw [hm.ncand]
      simp only [Option.some.injEq] at hc'
      simpa [ncands, hn, ← hc'] using hc
    · simp at hv
  · intro j v hv
    simp only [request] at hv
    split at hv
    · rename_i ha
      simp only [List.mem_singleton, Prod.mk.injEq] at hv
      obtain ⟨e1, e2⟩ := hv
      subst e1; subst e2
      refine ⟨(j, .wts), hm.wts j n hn hconf ha, ?_⟩
      intro c' hc'
      rw [hm.ncand]
      simp only [Option.some.injEq] at hc'
      simpa [ncands, hn, ← hc'] using hc
    · simp at hv

theorem onlyState_configured {net : Net} {m : EvalModel} (hm : Serves net m) {i c : ℕ} {n : Node}
    (hn : net.nodes[i]? = some n) (hconf : n.conf = true) :
    IsConfigured m (request n i c).1 (request n i c).2 (onlyState n i c) := by
  intro l
  have key : ∀ v, Requested m (request n i c).1 (request n i c).2 l v ↔
      v = some c ∧ l.1 = i ∧ ((l.2 = .act ∧ n.confAct = true) ∨ (l.2 = .wts ∧ n.anyConfWeight = true)) := by
    intro v
    unfold Requested request
    constructor
    · rintro ⟨j, ⟨h1, h2⟩ | ⟨h1, h2⟩⟩
      · simp only at h1
        split at h1
        · rename_i ha
          simp only [List.mem_singleton, Prod.mk.injEq] at h1
          obtain ⟨e1, e2⟩ := h1
          rw [e1] at h2
          have := addressed_unique h2 (hm.act i n hn hconf ha)
          rw [this]
          exact ⟨e2, rfl, Or.inl ⟨rfl, ha⟩⟩
        · simp at h1
      · simp only at h1
        split at h1
        · rename_i ha
          simp only [List.mem_singleton, Prod.mk.injEq] at h1
          obtain ⟨e1, e2⟩ := h1
          rw [e1] at h2
          have := addressed_unique h2 (hm.wts i n hn hconf ha)
          rw [this]
          exact ⟨e2, rfl, Or.inr ⟨rfl, ha⟩⟩
        · simp at h1
    · rintro ⟨e1, e2, ⟨h1, h2⟩ | ⟨h1, h2⟩⟩
      · refine ⟨i, Or.inl ⟨by simp [h2, e1], ?_⟩⟩
        have : l = (i, .act) := Prod.ext e2 h1
        rw [this]; exact hm.act i n hn hconf h2
      · refine ⟨i, Or.inr ⟨by simp [h2, e1], ?_⟩⟩
        have : l = (i, .wts) := Prod.ext e2 h1
        rw [this]; exact hm.wts i n hn hconf h2
  unfold onlyState
  constructor
  · intro v hv
    obtain ⟨h1, h2⟩ := (key v).mp hv
    rw [if_pos h2, h1]
  · intro h
    rw [if_neg]
    intro hc
    exact h (some c) ((key (some c)).mpr ⟨rfl, hc⟩)

theorem measure_serves {net : Net} {m : EvalModel} (hm : Serves net m) (metric : State → Option K) :
    measure m metric (searchCalls net) off =
      ((allCandidates net).mapM (sensitivityOf net metric), off) := by
  have h : ∀ p ∈ allCandidates net,
      evaluate m metric (callOf net p).order (callOf net p).order' (callOf net p).a (callOf net p).w off =
        (sensitivityOf net metric p, off) := by
    rintro ⟨i, c⟩ hp
    obtain ⟨st, h1, h2⟩ := C102_evaluated m hm.separate metric _ (goodCall hm hp)
    obtain ⟨n, hn, hconf, hc⟩ := mem_allCandidates hp
    rw [h2]
    have e : st = onlyState n i c := by
      have hcall : callOf net (i, c) = ⟨(request n i c).1, (request n i c).2, [i], [i]⟩ := by
        simp [callOf, hn]
      rw [hcall] at h1
      exact isConfigured_unique h1 (onlyState_configured hm hn hconf)
    simp [sensitivityOf, hn, e]
  rw [searchCalls_eq]
  -- the value of a call, read off the call itself
  have hg : ∀ (l : List (ℕ × ℕ)), (∀ p ∈ l, p ∈ allCandidates net) →
      measure m metric (l.map (callOf net)) off = (l.mapM (sensitivityOf net metric), off) := by
    intro l
    induction l with
    | nil => intro _; rfl
    | cons p l ih =>
      intro hl
      simp only [List.map_cons, measure, h p (hl p (by simp))]
      rw [List.mapM_cons]
      rcases sensitivityOf net metric p with _ | v
      · rfl
      · simp only []
        rw [ih fun q hq => hl q (by simp [hq])]
        rcases l.mapM (sensitivityOf net metric) with _ | vs <;> rfl
  exact hg _ fun p hp => hp

/-! ### The two frameworks -/

theorem torchModel_eq {net : Net} (hk : OnlyKernels net) (disable : Bool) :
    ∃ m, torchModel net disable = some m ∧ m.ncand = ncands net ∧ m.ofNode = fun i =>
        match net.nodes[i]? with
        | none => none
        | some n =>
          if evalConf disable n then
            some ((if kernelOn n && !n.reuse then [(i, Kind.wts)] else []) ++
              if evalAct disable n then [(i, Kind.act)] else [])
          else none := by
  unfold torchModel
  rw [wrapperError_false hk]
  exact ⟨_, rfl, rfl, rfl⟩

theorem torch_serves {net : Net} (hk : OnlyKernels net) (disable : Bool)
    (hd : disable = true → ∀ n ∈ net.nodes, n.confAct = false)
    (hr : ∀ n ∈ net.nodes, n.reuse = true → n.confAct = true → n.anyConfWeight = false) :
    ∃ m, torchModel net disable = some m ∧ Serves net m := by
  obtain ⟨m, h1, h2, h3⟩ := torchModel_eq hk disable
  have hof : ∀ i n, net.nodes[i]? = some n → m.ofNode i =
      if evalConf disable n then
        some ((if kernelOn n && !n.reuse then [(i, Kind.wts)] else []) ++
          if evalAct disable n then [(i, Kind.act)] else [])
      else none := by
    intro i n hn
    rw [h3]; simp only [hn]
  have hea : ∀ n ∈ net.nodes, evalAct disable n = n.confAct := by
    intro n hn
    unfold evalAct
    rcases hdd : disable with _ | _
    · simp
    · simp [hd hdd n hn]
  have hec : ∀ n ∈ net.nodes, evalConf disable n = n.conf := by
    intro n hn
    unfold evalConf Node.conf
    rw [hea n hn]
  refine ⟨m, h1, ?_, fun l => by rw [h2], ?_, ?_⟩
  · intro i i' ls ls' l hi hi' hl hl'
    have own : ∀ (j : ℕ) (ks : List Layer), m.ofNode j = some ks → l ∈ ks → l.1 = j := by
      intro j ks hj hlk
      rw [h3] at hj
      simp only at hj
      split at hj
      · simp at hj
      · split at hj
        · simp only [Option.some.injEq] at hj
          rw [← hj] at hlk
          rw [List.mem_append] at hlk
          rcases hlk with hlk | hlk
          · split at hlk
            · simp at hlk; rw [hlk]
            · simp at hlk
          · split at hlk
            · simp at hlk; rw [hlk]
            · simp at hlk
        · simp at hj
    rw [← own i ls hi hl, ← own i' ls' hi' hl']
  · intro i n hn hconf ha
    have hmem := List.mem_of_getElem? hn
    refine ⟨rfl, (if kernelOn n && !n.reuse then [(i, Kind.wts)] else []), [], ?_, ?_⟩
    · rw [hof i n hn, hec n hmem, hconf, hea n hmem, ha]
      simp
    · intro x hx
      split at hx
      · simp at hx; simp [hx]
      · simp at hx
  · intro i n hn hconf hw
    have hmem := List.mem_of_getElem? hn
    have hkc := hk n hmem hw
    have hre : n.reuse = false := by
      by_contra hre
      rw [Bool.not_eq_false] at hre
      unfold Node.conf at hconf
      rw [Bool.or_eq_true] at hconf
      rcases hconf with h | h
      · rw [hr n hmem hre h] at hw; simp at hw
      · rw [(kernelConf_of_confKernel h).2] at hre; simp at hre
    refine ⟨rfl, [], (if evalAct disable n then [(i, Kind.act)] else []), ?_, by simp⟩
    rw [hof i n hn, hec n hmem, hconf, kernelOn_of_kernelConf hkc, hre]
    simp

theorem keras_serves {net : Net} (base : ℕ → ℕ) (hk : OnlyKernels net) (disable : Bool)
    (hd : disable = true → ∀ n ∈ net.nodes, n.confAct = false)
    (hb : ∀ i n, net.nodes[i]? = some n → n.reuse = false → base i = i)
    (hr : ∀ n ∈ net.nodes, n.reuse = true → n.confAct = false) :
    ∃ m, kerasModel net base disable = some m ∧ Serves net m := by
  have hea : ∀ n ∈ net.nodes, evalAct disable n = n.confAct := by
    intro n hn
    unfold evalAct
    rcases hdd : disable with _ | _
    · simp
    · simp [hd hdd n hn]
  have hec : ∀ n ∈ net.nodes, evalConf disable n = n.conf := by
    intro n hn
    unfold evalConf Node.conf
    rw [hea n hn]
  -- with these networks every holder belongs to its own node
  have hhold : ∀ i n, net.nodes[i]? = some n →
      ((if evalAct disable n then
          ((List.range net.nodes.length).filter fun j =>
            decide (base j = i) &&
              match net.nodes[j]? with | some nj => evalAct disable nj | none => false).map
            fun j => (j, Kind.act)
        else []) : List Layer) = if evalAct disable n then [(i, Kind.act)] else [] := by
    intro i n hn
    split
    · rename_i he
      have hmem := List.mem_of_getElem? hn
      have hlt : i < net.nodes.length := (List.getElem?_eq_some_iff.mp hn).1
      have hre : n.reuse = false := by
        by_contra hc
        rw [Bool.not_eq_false] at hc
        rw [hea n hmem, hr n hmem hc] at he
        simp at he
      have : (List.range net.nodes.length).filter (fun j =>
            decide (base j = i) &&
              match net.nodes[j]? with | some nj => evalAct disable nj | none => false) =
          (List.range net.nodes.length).filter fun j => j == i := by
        apply List.filter_congr
        intro j hj
        rw [Bool.eq_iff_iff]
        simp only [Bool.and_eq_true, decide_eq_true_eq, beq_iff_eq]
        constructor
        · rintro ⟨h1, h2⟩
          rcases hnj : net.nodes[j]? with _ | nj
          · rw [hnj] at h2; simp at h2
          · rw [hnj] at h2
            simp only at h2
            have hmj := List.mem_of_getElem? hnj
            have : nj.reuse = false := by
              by_contra hc
              rw [Bool.not_eq_false] at hc
              rw [hea nj hmj, hr nj hmj hc] at h2
              simp at h2
            rw [← h1]
            exact (hb j nj hnj this).symm
        · intro e
          rw [e]
          refine ⟨hb i n hn hre, ?_⟩
          rw [hn]; exact he
      rw [this]
      rw [List.filter_beq, List.nodup_range.count, if_pos (List.mem_range.mpr hlt)]
      rfl
    · rfl
  obtain ⟨m, h1, h2⟩ := torch_serves hk disable hd (by
    intro n hn h1 h2
    rw [hr n hn h1] at h2; simp at h2)
  refine ⟨m, ?_, h2⟩
  rw [← h1]
  unfold kerasModel torchModel
  split
  · rfl
  · congr 2
    funext i
    rcases hn : net.nodes[i]? with _ | n
    · rfl
    · exact congrArg (fun x => if evalConf disable n then
        some ((if kernelOn n && !n.reuse then [(i, Kind.wts)] else []) ++ x) else none) (hhold i n hn)

/-- **C102, partial.** In PyTorch, if only kernels vary among the weights and no layer that is used
several times has both configurable weights and configurable activations, every candidate of every
configurable layer is measured, each with only the quantizers of this layer active.  Missing: layers
used several times (`C102_reused_violated`). -/
theorem C102_torch_partial (net : Net) (hk : OnlyKernels net) (disable : Bool)
    (hd : disable = true → ∀ n ∈ net.nodes, n.confAct = false)
    (hr : ∀ n ∈ net.nodes, n.reuse = true → n.confAct = true → n.anyConfWeight = false)
    (metric : State → Option K) :
    torchSensitivities net disable metric = (allCandidates net).mapM (sensitivityOf net metric) := by
  obtain ⟨m, h1, h2⟩ := torch_serves hk disable hd hr
  unfold torchSensitivities
  rw [h1, Option.bind_some, measure_serves h2 metric]

/-- **C102, partial.** The same in Keras, if no layer that is used several times has configurable
activations. -/
theorem C102_keras_partial (net : Net) (base : ℕ → ℕ) (hk : OnlyKernels net) (disable : Bool)
    (hd : disable = true → ∀ n ∈ net.nodes, n.confAct = false)
    (hb : ∀ i n, net.nodes[i]? = some n → n.reuse = false → base i = i)
    (hr : ∀ n ∈ net.nodes, n.reuse = true → n.confAct = false) (metric : State → Option K) :
    kerasSensitivities net base disable metric =
      (allCandidates net).mapM (sensitivityOf net metric) := by
  obtain ⟨m, h1, h2⟩ := keras_serves base hk disable hd hb hr
  unfold kerasSensitivities
  rw [h1, Option.bind_some, measure_serves h2 metric]

/-- Two convolutions, a ReLU between them; 2 kernel options times 2 activation options. -/
def exNet : Net where
  nodes :=
    [{ reuse := false, attrs := [(10, true)], kernel := some 0,
       cands := [⟨8, [8]⟩, ⟨4, [8]⟩, ⟨8, [4]⟩, ⟨4, [4]⟩], mode := .quant, actSize := 4, inner := false, macs := 7, prev := [] },
     { reuse := false, attrs := [], kernel := none, cands := [⟨8, []⟩, ⟨4, []⟩], mode := .quant,
       actSize := 4, inner := false, macs := 0, prev := [0] },
     { reuse := false, attrs := [(10, true)], kernel := some 0, cands := [⟨8, [8]⟩, ⟨8, [2]⟩],
       mode := .quant, actSize := 4, inner := false, macs := 7, prev := [1] }]
  cuts := []

theorem exNet_kernels : OnlyKernels exNet := by
  intro n hn
  simp only [exNet, List.mem_cons, List.not_mem_nil, or_false] at hn
  rcases hn with e | e | e <;> subst e <;> decide

/-- A metric for the examples: bits of information about the active quantizers of three nodes. -/
def exMetric (st : State) : Option ℕ :=
  some (((List.range 3).map fun i => (100 ^ i) *
    ((match st (i, .act) with | some c => 1 + c | none => 0) +
      10 * (match st (i, .wts) with | some c => 1 + c | none => 0))).sum)

example : OnlyKernels exNet ∧ (∀ n ∈ exNet.nodes, n.reuse = true → n.confAct = false) ∧
    torchSensitivities exNet false exMetric = some [11, 22, 33, 44, 100, 200, 100000, 200000] ∧
    kerasSensitivities exNet id false exMetric = some [11, 22, 33, 44, 100, 200, 100000, 200000] := by
  refine ⟨exNet_kernels, by decide, ?_, ?_⟩ <;> decide +kernel

/-- The hypotheses of the theorems on single calls are met. -/
example : ∃ m, torchModel exNet false = some m ∧ Separate m ∧
    GoodCall m (callOf exNet (0, 3)) := by
  obtain ⟨m, h1, h2⟩ := torch_serves (net := exNet) exNet_kernels false (by simp)
    (by intro n hn h; simp only [exNet, List.mem_cons, List.not_mem_nil, or_false] at hn
        rcases hn with e | e | e <;> subst e <;> simp at h)
  exact ⟨m, h1, h2.separate, goodCall h2 (by decide)⟩

/-- A convolution with configurable kernel and activation used twice. -/
def exReused : Net where
  nodes :=
    [{ reuse := false, attrs := [(10, true)], kernel := some 0,
       cands := [⟨8, [8]⟩, ⟨4, [8]⟩, ⟨8, [4]⟩, ⟨4, [4]⟩], mode := .quant, actSize := 4, inner := false, macs := 7, prev := [] },
     { reuse := true, attrs := [(10, true)], kernel := some 0,
       cands := [⟨8, [8]⟩, ⟨4, [8]⟩, ⟨8, [4]⟩, ⟨4, [4]⟩], mode := .quant, actSize := 4, inner := false, macs := 7, prev := [0] }]
  cuts := []

/-- **C102 violated for layers used several times.** The sensitivities of a network with a reused
convolution whose kernel and activation are both configurable cannot be measured in either framework:
no quantizer is found under the name of the second use. -/
theorem C102_reused_violated : OnlyKernels exReused ∧
    torchSensitivities exReused false exMetric = none ∧
    kerasSensitivities exReused (fun _ => 0) false exMetric = none := by
  refine ⟨?_, by decide +kernel, by decide +kernel⟩
  intro n hn
  simp only [exReused, List.mem_cons, List.not_mem_nil, or_false] at hn
  rcases hn with e | e <;> subst e <;> decide

/-- In Keras a reused layer without weights, such as a ReLU used twice, is enough. -/
def exReusedRelu : Net where
  nodes :=
    [{ reuse := false, attrs := [], kernel := none, cands := [⟨8, []⟩, ⟨4, []⟩], mode := .quant,
       actSize := 4, inner := false, macs := 0, prev := [] },
     { reuse := true, attrs := [], kernel := none, cands := [⟨8, []⟩, ⟨4, []⟩], mode := .quant,
       actSize := 4, inner := false, macs := 0, prev := [0] }]
  cuts := []

theorem C102_reused_relu_violated :
    torchSensitivities exReusedRelu false exMetric = some [1, 2, 100, 200] ∧
      kerasSensitivities exReusedRelu (fun _ => 0) false exMetric = none := by
  constructor <;> decide +kernel

/-- **C102 violated after a rejected call.** A call that is rejected while it is applied (one of its
entries has no quantizer) leaves the quantizers it has already set active, and the next call is
measured with them: the value of the same valid call differs before and after. -/
theorem C102_rejected_violated : ∃ m, torchModel exNet false = some m ∧ ∃ bad good : Call,
    GoodCall m good ∧ (evaluate m exMetric bad.order bad.order' bad.a bad.w off).1 = none ∧
    (evaluateAll m exMetric [good] off).1 ≠ ((evaluateAll m exMetric [bad, good] off).1.drop 1) := by
  obtain ⟨m, h1, h2⟩ := torch_serves (net := exNet) exNet_kernels false (by simp)
    (by intro n hn h; simp only [exNet, List.mem_cons, List.not_mem_nil, or_false] at hn
        rcases hn with e | e | e <;> subst e <;> simp at h)
  refine ⟨m, h1, ⟨[(0, some 1)], [(1, some 0)], [0, 1], [0, 1]⟩, callOf exNet (1, 1),
    goodCall h2 (by decide), ?_, ?_⟩
  · have : m = (torchModel exNet false).getD ⟨fun _ => 0, fun _ => none⟩ := by rw [h1]; rfl
    rw [this]
    decide +kernel
  · have : m = (torchModel exNet false).getD ⟨fun _ => 0, fun _ => none⟩ := by rw [h1]; rfl
    rw [this]
    decide +kernel

/-! ### The filter of the candidates -/

theorem allEqual_of {l : List ℕ} {x : ℕ} (h : ∀ y ∈ l, y = x) : allEqual l = true := by
  unfold allEqual
  split
  · rfl
  · rename_i a l
    rw [List.all_eq_true]
    intro b hb
    rw [h b (by simp [hb]), h a (by simp)]
    simp

/-- **C103.** If only the weights memory is restricted, afterwards no activation is configurable, the
base configuration of every layer is still a candidate, and a layer loses exactly the candidates whose
activation bits differ from the base configuration (only if its activation was configurable). -/
theorem C103_weights_only (nodes : List BNode) (hb : ∀ p ∈ nodes, p.2 ∈ p.1.cands) :
    List.Forall₂ (fun p n => n.confAct = false ∧ p.2 ∈ n.cands ∧
      (∀ c, c ∈ n.cands ↔ c ∈ p.1.cands ∧ (p.1.confAct = true → c.aBits = p.2.aBits)) ∧
      n = { p.1 with cands := n.cands })
      nodes (filterCands true false false false nodes) := by
  unfold filterCands
  simp only [Bool.or_self, Bool.false_eq_true, if_false, Bool.not_false, Bool.and_self, if_true]
  rw [List.forall₂_map_right_iff, List.forall₂_same]
  intro p hp
  unfold filterAct
  by_cases hc : p.1.confAct = true
  · rw [if_pos hc]
    have hq : p.1.mode = .quant := by
      unfold Node.confAct at hc
      simp at hc; exact hc.1
    refine ⟨?_, ?_, ?_, rfl⟩
    · unfold Node.confAct
      rw [allEqual_of (x := p.2.aBits)]
      · simp
      · intro y hy
        simp only [List.mem_map, List.mem_filter, Bool.and_eq_true, decide_eq_true_eq] at hy
        obtain ⟨c, ⟨-, -, h⟩, e⟩ := hy
        rw [← e]; exact h
    · simp [hb p hp, hq]
    · intro c
      simp [hq, hc]
  · rw [if_neg hc]
    refine ⟨by simpa using hc, hb p hp, ?_, rfl⟩
    intro c
    simp [hc]

example : (∀ p ∈ exNet.nodes.map (fun n => (n, n.cands.headD ⟨0, []⟩)), p.2 ∈ p.1.cands) ∧
    (filterCands true false false false (exNet.nodes.map fun n => (n, n.cands.headD ⟨0, []⟩))).map
      Node.cands = [[⟨8, [8]⟩, ⟨8, [4]⟩], [⟨8, []⟩], [⟨8, [8]⟩, ⟨8, [2]⟩]] := by
  constructor <;> decide

/-- **C103.** If only the activation memory is restricted, afterwards no kernel of a layer that is not
a further use of another one is configurable, the base configuration of every layer is still a
candidate, and a layer loses exactly the candidates whose kernel bits differ from the base
configuration (only if its kernel was configurable and it is not reused). -/
theorem C103_activation_only (nodes : List BNode) (hb : ∀ p ∈ nodes, p.2 ∈ p.1.cands) :
    List.Forall₂ (fun p n => n.confKernel = false ∧ p.2 ∈ n.cands ∧
      (∀ c, c ∈ n.cands ↔ c ∈ p.1.cands ∧
        (p.1.confKernel = true → ∀ k, p.1.kernel = some k → c.w k = p.2.w k)) ∧
      n = { p.1 with cands := n.cands })
      nodes (filterCands false true false false nodes) := by
  unfold filterCands
  simp only [Bool.or_self, Bool.false_eq_true, if_false, Bool.not_true, Bool.and_false, Bool.not_false,
    Bool.and_self, if_true]
  rw [List.forall₂_map_right_iff, List.forall₂_same]
  intro p hp
  unfold filterWts
  by_cases hc : p.1.confKernel = true
  · rw [if_pos hc]
    rcases hk : p.1.kernel with _ | k
    · unfold Node.confKernel at hc
      rw [hk] at hc; simp at hc
    · have hc' := hc
      unfold Node.confKernel at hc'
      rw [hk] at hc'
      simp only [Bool.and_eq_true] at hc'
      have hw := hc'.1
      unfold Node.confWeight at hw
      rcases hat : p.1.attrs[k]? with _ | q
      · rw [hat] at hw; simp at hw
      · rw [hat] at hw
        simp only [Bool.and_eq_true] at hw
        refine ⟨?_, ?_, ?_, ?_⟩
        · unfold Node.confKernel Node.confWeight
          simp only [hat, hk]
          rw [allEqual_of (x := p.2.w k)]
          · simp
          · intro y hy
            simp only [List.mem_map, List.mem_filter, Bool.and_eq_true, decide_eq_true_eq] at hy
            obtain ⟨c, ⟨-, -, h⟩, e⟩ := hy
            rw [← e]; exact h
        · simp [hb p hp, hat, hw.1]
        · intro c
          simp [hat, hw.1, hc]
        · simp [hk]
  · rw [if_neg hc]
    refine ⟨by simpa using hc, hb p hp, ?_, rfl⟩
    intro c
    simp [hc]

/-- **C103.** With a restriction of the total memory, of the bit operations, or of both memories, or
without one, nothing is filtered. -/
theorem C103_unfiltered (wR aR tR bR : Bool) (nodes : List BNode)
    (h : tR = true ∨ bR = true ∨ wR = aR) : filterCands wR aR tR bR nodes = nodes.map Prod.fst := by
  unfold filterCands
  rcases h with h | h | h
  · simp [h]
  · simp [h]
  · subst h
    cases tR <;> cases bR <;> cases wR <;> simp

/-- **C103.** A search restricted in the weights memory alone can always be measured: after the filter
all candidates of all configurable layers get a sensitivity, in both frameworks, also when layers are
used several times — each with only the kernel quantizer of this layer active.  (`hk`: among the
weights only kernels vary, before and after the filter.) -/
theorem C103_weights_only_measured (nodes : List BNode) (hb : ∀ p ∈ nodes, p.2 ∈ p.1.cands)
    (cuts : List (List ℕ)) (base : ℕ → ℕ) (metric : State → Option K)
    (hk : OnlyKernels ⟨filterCands true false false false nodes, cuts⟩)
    (hbase : ∀ i p, nodes[i]? = some p → p.1.reuse = false → base i = i) :
    let net : Net := ⟨filterCands true false false false nodes, cuts⟩
    torchSensitivities net (disableAct true false false false net) metric =
        (allCandidates net).mapM (sensitivityOf net metric) ∧
      kerasSensitivities net base (disableAct true false false false net) metric =
        (allCandidates net).mapM (sensitivityOf net metric) := by
  intro net
  have hf := C103_weights_only nodes hb
  have hno : ∀ n ∈ net.nodes, n.confAct = false := by
    intro n hn
    obtain ⟨i, hi, e⟩ := List.getElem_of_mem hn
    have hlen := hf.length_eq
    have := List.Forall₂.get hf (i := i) (by rw [hlen]; exact hi) hi
    simp only [List.get_eq_getElem] at this
    rw [← e]; exact this.1
  refine ⟨C102_torch_partial net hk _ (fun _ => hno) (fun n hn _ h => ?_) metric,
    C102_keras_partial net base hk _ (fun _ => hno) ?_ (fun n hn _ => hno n hn) metric⟩
  · rw [hno n hn] at h; simp at h
  · intro i n hn hre
    obtain ⟨hi, e⟩ := List.getElem?_eq_some_iff.mp hn
    have hlen := hf.length_eq
    have hi' : i < nodes.length := by rw [hlen]; exact hi
    have := List.Forall₂.get hf (i := i) hi' hi
    simp only [List.get_eq_getElem] at this
    have hrn := this.2.2.2
    refine hbase i nodes[i] (List.getElem?_eq_getElem hi') ?_
    have e' : (filterCands true false false false nodes)[i] = n := e
    rw [e'] at hrn
    rw [hrn] at hre
    exact hre

example : OnlyKernels ⟨filterCands true false false false
      (exReused.nodes.map fun n => (n, n.cands.headD ⟨0, []⟩)), []⟩ ∧
    torchSensitivities ⟨filterCands true false false false
      (exReused.nodes.map fun n => (n, n.cands.headD ⟨0, []⟩)), []⟩ true exMetric = some [10, 20] := by
  constructor
  · intro n hn
    have : n = ⟨false, [(10, true)], some 0, [⟨8, [8]⟩, ⟨8, [4]⟩], .quant, 4, false, 7, []⟩ ∨
        n = ⟨true, [(10, true)], some 0, [⟨8, [8]⟩, ⟨8, [4]⟩], .quant, 4, false, 7, [0]⟩ := by
      simpa [exReused, filterCands, filterAct, Node.confAct, allEqual] using hn
    rcases this with e | e <;> subst e <;> decide
  · decide +kernel

/-- **C103 (metric).**  Whatever is restricted: the activations are left out of the metric exactly if, after the filter of
the candidates, the activation of no layer can vary any more. -/
theorem C103_metric (wR aR tR bR : Bool) (nodes : List BNode) (hb : ∀ p ∈ nodes, p.2 ∈ p.1.cands)
    (cuts : List (List ℕ)) :
    disableAct wR aR tR bR ⟨filterCands wR aR tR bR nodes, cuts⟩ = true ↔
      ∀ n ∈ filterCands wR aR tR bR nodes, ¬ (n.mode = .quant ∧ ∃ c ∈ n.cands, ∃ d ∈ n.cands, c.aBits ≠ d.aBits) := by
  have hiff : (∀ n ∈ filterCands wR aR tR bR nodes,
      ¬ (n.mode = .quant ∧ ∃ c ∈ n.cands, ∃ d ∈ n.cands, c.aBits ≠ d.aBits)) ↔
      ∀ n ∈ filterCands wR aR tR bR nodes, n.confAct = false := by
    constructor
    · intro h n hn
      have := h n hn
      rw [← confAct_iff] at this
      simpa using this
    · intro h n hn
      rw [← confAct_iff, h n hn]
      simp
  rw [hiff]
  have hany : (!((filterCands wR aR tR bR nodes).any Node.confAct)) = true ↔
      ∀ n ∈ filterCands wR aR tR bR nodes, n.confAct = false := by
    rw [Bool.not_eq_true', List.any_eq_false]
    exact forall_congr' fun n => forall_congr' fun _ => by simp
  unfold disableAct
  rw [Bool.or_eq_true, hany]
  constructor
  · rintro (h | h)
    · have e : wR = true ∧ aR = false ∧ tR = false ∧ bR = false := by
        cases wR <;> cases aR <;> cases tR <;> cases bR <;> simp at h ⊢
      obtain ⟨rfl, rfl, rfl, rfl⟩ := e
      intro n hn
      obtain ⟨i, hi, e⟩ := List.getElem_of_mem hn
      have hf := C103_weights_only nodes hb
      have := List.Forall₂.get hf (i := i) (by rw [hf.length_eq]; exact hi) hi
      simp only [List.get_eq_getElem] at this
      rw [← e]; exact this.1
    · exact h
  · exact fun h => Or.inr h

/-- With the total restricted as well the activations vary, and count. -/
example : disableAct true false true false ⟨filterCands true false true false
      (exReused.nodes.map fun n => (n, n.cands.headD ⟨0, []⟩)), []⟩ = false ∧
    disableAct true false false false ⟨filterCands true false false false
      (exReused.nodes.map fun n => (n, n.cands.headD ⟨0, []⟩)), []⟩ = true := by decide

/-- **C103 violated for reused layers.** With only the activation memory restricted, the candidates of
the second use of a layer are not filtered: its kernel still varies, and the sensitivities cannot be
measured. -/
theorem C103_activation_only_reused_violated :
    let nodes := exReused.nodes.map fun n => ((n, n.cands.headD ⟨0, []⟩) : BNode)
    let net : Net := ⟨filterCands false true false false nodes, []⟩
    (∀ p ∈ nodes, p.2 ∈ p.1.cands) ∧ (∃ n ∈ net.nodes, kernelConf n = true) ∧
      torchSensitivities net (disableAct false true false false net) exMetric = none := by
  refine ⟨by decide, by decide, by decide +kernel⟩

end MCT.Sens
