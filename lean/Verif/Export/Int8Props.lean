import Verif.Export.Int8
import Verif.Decomp.KMhaProps

/-!
# C127: the point-wise convolution that replaces a dense layer computes the same
-/

namespace MCT.Export

open MCT.Decomp

variable {K C : Type}

theorem exists_ends {s : List ℕ} (h : 2 ≤ s.length) : ∃ n dims c, s = n :: dims ++ [c] := by
  match s, h with
  | n :: a :: l, _ =>
    refine ⟨n, (a :: l).dropLast, (a :: l).getLast (by simp), ?_⟩
    rw [List.cons_append, List.dropLast_append_getLast]

theorem innerDims_known (b : Option ℕ) (dims : List ℕ) (c : Option ℕ) :
    innerDims (b :: dims.map some ++ [c]) = some dims := by
  unfold innerDims
  rw [List.cons_append, List.drop_one, List.tail_cons, List.dropLast_concat]
  rw [MCT.Decomp.mapM_some (g := fun o => o.getD 0) (by intro a ha; obtain ⟨x, _, rfl⟩ := List.mem_map.1 ha; rfl)]
  simp

theorem pwKernel_spec {d : DenseWrap C K} {w : Tensor K} {c : ℕ} (h : d.weights[0]? = some w) (hw : w.shape = [c, d.units]) :
    ∃ k, pwKernel d = some k ∧ k.shape = [1, 1, c, d.units] ∧
      ∀ i u, i < c → u < d.units → k.get [0, 0, i, u] = w.get [i, u] := by
  refine ⟨⟨[1, 1, c, d.units], fun i => w.get (unflat w.shape (flat [1, 1, c, d.units] i))⟩, ?_, rfl, ?_⟩
  · simp only [pwKernel, h, Option.bind_some, hw, reshape, fixed]
    rw [resolve_full (by simp)]
    rfl
  · intro i u hi hu
    show w.get _ = _
    congr 1
    rw [hw]
    apply unflat_eq
    · simp [flat]
    · rw [valid_cons, valid_cons]
      exact ⟨hi, hu, valid_nil⟩

theorem quantizeW_kernel [Inhabited K] (q : C → K × K → K → K) {d : DenseWrap C K} {w wq k : Tensor K} {c : ℕ} {t : List K}
    (hw : w.shape = [c, d.units]) (hk : k.shape = [1, 1, c, d.units])
    (hkw : ∀ i u, i < c → u < d.units → k.get [0, 0, i, u] = w.get [i, u])
    (hq : quantizeW q d.quantizer w = some wq) (ht : d.quantizer.ranges = .threshold t)
    (hax : d.quantizer.perChannel = true → d.quantizer.axis = 1) :
    ∃ cfg kq, pwQuantizer d = some cfg ∧ quantizeW q cfg k = some kq ∧ kq.shape = [1, 1, c, d.units] ∧
      ∀ i u, i < c → u < d.units → kq.get [0, 0, i, u] = wq.get [i, u] := by
  refine ⟨{ d.quantizer with axis := 3, rank := 4, ranges := .threshold t }, ?_⟩
  unfold pwQuantizer
  rw [ht]
  unfold quantizeW at hq ⊢
  dsimp only
  by_cases hp : d.quantizer.perChannel = true
  · rw [if_pos hp] at hq
    split at hq
    · rename_i hc
      obtain ⟨h1, h2, h3⟩ := hc
      rw [hax hp, hw, ht] at h3
      rw [if_pos hp, if_pos (by rw [hk]; exact ⟨rfl, by decide, by simpa using h3⟩)]
      refine ⟨_, rfl, rfl, hk, ?_⟩
      obtain rfl := Option.some.inj hq
      intro i u hi hu
      show q _ _ (k.get _) = q _ _ (w.get _)
      rw [hkw i u hi hu, hax hp, ht]
      rfl
    · simp at hq
  · rw [if_neg hp] at hq ⊢
    refine ⟨_, rfl, rfl, hk, ?_⟩
    obtain rfl := Option.some.inj hq
    intro i u hi hu
    show q _ _ (k.get _) = q _ _ (w.get _)
    rw [hkw i u hi hu, ht]

/-- The input shape that the layer was built with: the batch size may be unknown, the sizes in between are those of the
tensor. -/
def Known (s : List (Option ℕ)) (x : List ℕ) : Prop :=
  ∃ b c, s = b :: ((x.drop 1).dropLast).map some ++ [c]

/-- **C127.** A dense layer whose kernel is quantized per tensor or per output channel with thresholds, and whose input
has known sizes except the batch: the exported point-wise convolution, with its two reshapes, computes on every input
what the wrapped layer computes, with any activation, also over the last axis. -/
theorem C127_dense [Field K] [Inhabited K] (q : C → K × K → K → K) (d : DenseWrap C K) (x r : Tensor K) (t : List K)
    (hr : denseRun q d x = some r) (ht : d.quantizer.ranges = .threshold t)
    (hax : d.quantizer.perChannel = true → d.quantizer.axis = 1)
    (hin : ∀ s ∈ d.inShapes, Known s x.shape) (hone : ∀ s ∈ d.inShapes, ∀ s' ∈ d.inShapes, s = s')
    (hcall : d.inShapes ≠ []) :
    ∃ y, runInt8 q d x = some y ∧ Same r y := by
  unfold denseRun at hr
  obtain ⟨w, hw0, hr⟩ := Option.bind_eq_some_iff.1 hr
  obtain ⟨wq, hwq, hr⟩ := Option.bind_eq_some_iff.1 hr
  obtain ⟨b, hb, hr⟩ := Option.bind_eq_some_iff.1 hr
  split at hr
  swap
  · simp at hr
  rename_i hc
  obtain ⟨hw, hlen, hbs⟩ := hc
  obtain ⟨n, dims, c, hx⟩ := exists_ends hlen
  have hlast : x.shape.getLastD 0 = c := by rw [hx]; exact shapeOf_last n dims c
  rw [hlast] at hw hr
  obtain ⟨s, l, hsl⟩ := List.exists_cons_of_ne_nil hcall
  have hshape : d.inputShape = some s := by
    unfold DenseWrap.inputShape
    rw [hsl]
    dsimp only
    rw [if_pos]
    rw [List.all_eq_true]
    intro y hy
    rw [beq_iff_eq]
    exact hone y (by rw [hsl]; exact List.mem_cons_of_mem _ hy) s (by rw [hsl]; exact List.mem_cons_self)
  have hdims : innerDims s = some dims := by
    obtain ⟨b', c', h⟩ := hin s (by rw [hsl]; exact List.mem_cons_self)
    have e : ((n :: dims ++ [c]).drop 1).dropLast = dims := by
      rw [List.cons_append, List.drop_one, List.tail_cons, List.dropLast_concat]
    rw [h, hx, e]
    exact innerDims_known _ _ _
  obtain ⟨k, hk, hks, hkw⟩ := pwKernel_spec hw0 hw
  obtain ⟨cfg, kq, hcfg, hkq, hkqs, hkqw⟩ := quantizeW_kernel q hw hks hkw hwq ht hax
  obtain ⟨x1, hx1, hx1s, hx1g⟩ := standard_reshape (t := x) (n := n) (c := c) (A := []) (B := dims) (by rw [hx]; simp)
  have hx1' : kreshape [1, dims.prod, c] x = some x1 := by simpa using hx1
  have hconv : conv2d kq b x1 = some ⟨[n, 1, dims.prod, d.units], fun i =>
        (sumN c fun k => x1.get [i.getD 0 0, i.getD 1 0, i.getD 2 0, k] * kq.get [0, 0, k, i.getD 3 0]) +
          (b.map fun t => t.get [i.getD 3 0]).getD 0⟩ := by
    unfold conv2d
    rw [hkqs, hx1s]
    simp only [and_self, if_true, hbs, List.prod_nil]
  set y : Tensor K := ⟨[n, 1, dims.prod, d.units], fun i =>
        (sumN c fun k => x1.get [i.getD 0 0, i.getD 1 0, i.getD 2 0, k] * kq.get [0, 0, k, i.getD 3 0]) +
          (b.map fun t => t.get [i.getD 3 0]).getD 0⟩ with hy
  obtain ⟨z, hz, hzs, hzg⟩ := standard_reshape_back (t := activate d.act y) (n := n) (c := d.units) (A := []) (B := dims)
    (by rw [hy]; simp [activate])
  refine ⟨z, ?_, ?_⟩
  · have hb' : pwBias d = some b := hb
    unfold runInt8
    rw [hshape, hk, hb', hcfg]
    simp only [Option.bind_some]
    rw [hdims, hw0]
    simp only [Option.bind_some]
    rw [hw]
    show (kreshape [1, dims.prod, c] x).bind _ = _
    rw [hx1', Option.bind_some, hkq, Option.bind_some, hconv, Option.bind_some]
    simpa using hz
  · obtain rfl := Option.some.inj hr
    have hdl : x.shape.dropLast ++ [d.units] = n :: [] ++ dims ++ [d.units] := by
      rw [hx, List.dropLast_concat]; simp
    refine ⟨by rw [hzs]; exact hdl, ?_⟩
    intro i hi
    dsimp only at hi ⊢
    rw [hdl] at hi
    have hi' : Valid ((n :: dims) ++ [d.units]) i := by simpa using hi
    obtain ⟨i1, i2, rfl, h1, h2⟩ := hi'.split
    obtain ⟨a, m, rfl, ha, hm⟩ := h1.cases_cons
    obtain ⟨o, e, rfl, ho, he⟩ := h2.cases_cons
    obtain rfl := he.cases_nil
    have hz' := hzg a [] m o ha valid_nil hm ho
    have e1 : a :: [] ++ m ++ [o] = a :: m ++ [o] := by simp
    rw [e1] at hz'
    rw [hz']
    show _ = d.act _ _
    have e2 : (a :: m ++ [o]).dropLast = a :: m := List.dropLast_concat
    have e3 : (a :: m ++ [o]).getLastD 0 = o := shapeOf_last a m o
    rw [e2, e3]
    show d.act _ o = d.act _ o
    congr 1
    have e4 : (activate d.act y).shape.getLastD 0 = d.units := rfl
    show _ = (List.range d.units).map _
    apply List.map_congr_left
    intro u hu
    have hu' := List.mem_range.1 hu
    show _ = (sumN c fun k => x1.get [a, 0, flat dims m, k] * kq.get [0, 0, k, u]) + (b.map fun t => t.get [u]).getD 0
    congr 1
    apply sumN_congr
    intro k hk'
    rw [hkqw k u hk' hu']
    have := hx1g a [] m k ha valid_nil hm hk'
    have e5 : a :: [] ++ m ++ [k] = a :: m ++ [k] := by simp
    rw [e5] at this
    have e6 : flat [] [] = 0 := rfl
    rw [e6] at this
    rw [this]

/-- A dense layer with two outputs on an input of shape (1, 2, 2), per-channel thresholds 1 and 2, clipping as
quantization. -/
def exDense : DenseWrap Unit ℚ where
  units := 2
  useBias := true
  act := fun l o => l.getD o 0
  weights := [⟨[2, 2], fun i => (i.getD 0 0 : ℚ) * 3 + i.getD 1 0⟩, ⟨[], fun _ => 0⟩, ⟨[2], fun i => i.getD 0 0⟩]
  quantizer := ⟨(), true, 1, 2, .threshold [1, 2]⟩
  inShapes := [[none, some 2, some 2]]

/-- Clipping to the range. -/
def exQuant : Unit → ℚ × ℚ → ℚ → ℚ := fun _ r v => min r.2 (max (-r.1) v)

/-- The case above meets the hypotheses of `C127_dense`, and its result depends on the channels' thresholds. -/
example : ∃ y, runInt8 exQuant exDense ⟨[1, 2, 2], fun i => (i.getD 1 0 : ℚ) + i.getD 2 0⟩ = some y ∧
    y.shape = [1, 2, 2] ∧ y.get [0, 1, 0] = 2 ∧ y.get [0, 1, 1] = 6 := by
  refine ⟨_, rfl, rfl, ?_, ?_⟩ <;> decide +kernel

example : ∃ r, denseRun exQuant exDense ⟨[1, 2, 2], fun i => (i.getD 1 0 : ℚ) + i.getD 2 0⟩ = some r ∧
    Known [none, some 2, some 2] [1, 2, 2] := ⟨_, rfl, none, some 2, rfl⟩

/-- **C127, violated: uniform quantizers.** Their configuration has no threshold: export of a model with a dense layer
whose kernel is quantized uniformly fails, whatever the layer. -/
theorem C127_uniform_violated [Field K] [Inhabited K] (q : C → K × K → K → K) (d : DenseWrap C K) (lo hi : List K)
    (h : d.quantizer.ranges = .minmax lo hi) (x : Tensor K) : runInt8 q d x = none := by
  have hp : pwQuantizer d = none := by simp only [pwQuantizer, h]
  unfold runInt8
  rw [hp]
  cases d.inputShape <;> cases pwKernel d <;> cases pwBias d <;> rfl

/-- **C127, violated: unknown sizes.** With an unknown size between batch and channels the export fails, although the
layer itself accepts inputs of every such size. -/
theorem C127_dynamic_violated [Field K] [Inhabited K] (q : C → K × K → K → K) (d : DenseWrap C K)
    (h : ∀ s ∈ d.inShapes, none ∈ (s.drop 1).dropLast) (x : Tensor K) : runInt8 q d x = none := by
  unfold runInt8
  cases hs : d.inputShape with
  | none => rfl
  | some s =>
    have hmem : s ∈ d.inShapes := by
      unfold DenseWrap.inputShape at hs
      split at hs
      · simp at hs
      · rename_i s' l hl
        split at hs
        · rw [hl, ← Option.some.inj hs]; exact List.mem_cons_self
        · simp at hs
    have hin : innerDims s = none := by
      have hn := h s hmem
      unfold innerDims
      generalize (s.drop 1).dropLast = l at hn
      induction l with
      | nil => simp at hn
      | cons a l ih =>
        rw [List.mapM_cons]
        cases a with
        | none => rfl
        | some a =>
          have : none ∈ l := by simpa using hn
          show (List.mapM id l).bind _ = none
          rw [ih this]; rfl
    rw [Option.bind_some, hin]
    cases pwKernel d <;> cases pwBias d <;> cases pwQuantizer d <;> rfl

/-- **C127, violated: shared layers.** A dense layer that is called on inputs of two different shapes cannot be
exported. -/
theorem C127_shared_violated [Field K] [Inhabited K] (q : C → K × K → K → K) (d : DenseWrap C K)
    (s s' : List (Option ℕ)) (h : s ∈ d.inShapes) (h' : s' ∈ d.inShapes) (hne : s ≠ s') (x : Tensor K) :
    runInt8 q d x = none := by
  have hp : d.inputShape = none := by
    unfold DenseWrap.inputShape
    split
    · rfl
    · rename_i s0 l hl
      rw [hl] at h h'
      rw [if_neg]
      intro hall
      have heq : ∀ y ∈ s0 :: l, y = s0 := by
        intro y hy
        rcases List.mem_cons.1 hy with rfl | hy
        · rfl
        · exact beq_iff_eq.1 (List.all_eq_true.1 hall y hy)
      exact hne ((heq s h).trans (heq s' h').symm)
  unfold runInt8
  rw [hp]; rfl

/-- The refused layers do compute something: uniform ranges, an unknown length, two lengths. -/
example : (denseRun exQuant { exDense with quantizer := ⟨(), true, 1, 2, .minmax [-1, -1] [1, 1]⟩ }
      ⟨[1, 2, 2], fun _ => 1⟩).isSome = true ∧
    (denseRun exQuant { exDense with inShapes := [[none, none, some 2]] } ⟨[1, 2, 2], fun _ => 1⟩).isSome = true ∧
    (denseRun exQuant { exDense with inShapes := [[none, some 2, some 2], [none, some 3, some 2]] }
      ⟨[1, 3, 2], fun _ => 1⟩).isSome = true := by decide +kernel

end MCT.Export
