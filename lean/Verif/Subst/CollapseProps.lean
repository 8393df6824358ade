/-
C36, C67, C70, C73, C74: collapsing layers, and depthwise convolutions as grouped ones.
-/
import Verif.Subst.CollapseLemmas
import Verif.Subst.Props
import Mathlib.Algebra.BigOperators.Group.Finset.Sigma

namespace MCT.Subst
open MCT.SubstSpec MCT.GraphSpec Finset

set_option linter.unusedSectionVars false
set_option linter.unusedVariables false

variable {K P : Type*} [Field K]

/-! ### C36: two convolutions -/

/-- **C36**, as far as it holds: a layer made from a convolution and a 1x1 convolution has the kernel
size of the first, no more kernel entries than both, and computes for every input, at every position,
what the two compute in sequence. `src` says where the taps of the first layer read: any size, stride,
dilation and padding, of which the new layer is a copy. For PyTorch the kernel has to be square. -/
theorem C36_collapsed_partial {c1 c2 : Conv K} {a1 a2 : Attrs} (hcc : c2.cin = c1.cout)
    (h1 : 0 < c1.kh) (h2 : 0 < c1.kw)
    (hk : c1.kind = .kerasConv ∨ (c1.kind = .torchConv ∧ c1.kh = c1.kw)) {d : Collapsed K}
    (h : collapsePair c1 a1 c2 a2 = .ok (some d)) :
    d.layer.kind = c1.kind ∧ d.layer.cin = c1.cin ∧ d.layer.cout = c2.cout ∧ d.layer.groups = 1 ∧
    d.layer.kh = c1.kh ∧ d.layer.kw = c1.kw ∧
    kernelSize d.layer ≤ kernelSize c1 + kernelSize c2 ∧
    ∀ (src : P → Nat → Option P) (src2 : P → Nat → Option P), (∀ p, src2 p 0 = some p) →
      ∀ (X : Nat → P → K) (o : Nat) (p : P), o < c2.cout →
        d.layer.out src X o p = c2.out src2 (channels c1.cout (c1.out src X)) o p := by
  rw [collapsePair] at h
  split at h
  swap
  · simp at h
  rename_i hc
  obtain ⟨⟨k1, k2⟩, -⟩ := hc
  obtain ⟨d', hd, e1, e2, e3, e4, e5, e6, e7, e8, e9⟩ := collapseConv_spec k1 k2 hcc h1 h2 hk
  rw [hd] at h
  simp only at h
  split at h
  · simp at h
  rename_i hsize
  simp only [Except.ok.injEq, Option.some.injEq] at h
  subst h
  refine ⟨e1, e2, e3, e4, e5, e6, by omega, ?_⟩
  intro src src2 hsrc X o p ho
  simp only [Conv.out, e2, e5, e6, e7, collapseBias_spec k1 k2, k1, k2, Nat.mul_one, sum_range_one,
    hcc, hsrc]
  have htap : ∀ i, tap (channels c1.cout (c1.out src X)) i (some p) =
      channels c1.cout (c1.out src X) i p := fun i => rfl
  simp only [htap]
  have lhs : ∑ i ∈ range c1.cin, ∑ t ∈ range (c1.kh * c1.kw), d'.layer.weight o i t * tap X i (src p t) =
      ∑ m ∈ range c1.cout, c2.weight o m 0 *
        ∑ i ∈ range c1.cin, ∑ t ∈ range (c1.kh * c1.kw), c1.weight m i t * tap X i (src p t) := by
    simp_rw [mul_sum]
    rw [sum_comm (s := range c1.cout)]
    apply sum_congr rfl
    intro i hi
    rw [sum_comm (s := range c1.cout)]
    apply sum_congr rfl
    intro t ht
    rw [e9 o i t ho (mem_range.1 hi) (mem_range.1 ht), sum_mul]
    exact sum_congr rfl (fun m _ => by ring)
  rw [lhs, ← add_assoc, ← sum_add_distrib]
  congr 1
  apply sum_congr rfl
  intro m hm
  simp only [channels, mem_range.1 hm, if_true, Conv.out]
  ring

/-- **C36**: the pair is collapsed exactly when the documented conditions hold and the result has no
more kernel entries; a Keras pair never fails. -/
theorem C36_applied {c1 c2 : Conv K} {a1 a2 : Attrs} (hk : c1.kind = .kerasConv)
    (hcc : c2.cin = c1.cout) (h1 : 0 < c1.kh) (h2 : 0 < c1.kw) :
    (∃ r, collapsePair c1 a1 c2 a2 = .ok r) ∧
    ((∃ d, collapsePair c1 a1 c2 a2 = .ok (some d)) ↔
      ((c2.kh = 1 ∧ c2.kw = 1) ∧ a1.strides = (1, 1) ∧ a2.strides = (1, 1) ∧ a1.dilations = (1, 1) ∧
        a2.dilations = (1, 1) ∧ c1.groups = 1 ∧ c2.groups = 1 ∧ (a2.pad = none ∨ a2.pad = some (0, 0))) ∧
      c1.kh * c1.kw * c1.cin * c2.cout ≤ kernelSize c1 + kernelSize c2) := by
  rw [collapsePair]
  split
  · rename_i hc
    obtain ⟨d, hd, e1, e2, e3, e4, e5, e6, e7, e8, e9⟩ :=
      collapseConv_spec hc.1.1 hc.1.2 hcc h1 h2 (Or.inl hk)
    have hs : kernelSize d.layer = c1.kh * c1.kw * c1.cin * c2.cout := by
      simp only [kernelSize, kernelShape, e1, hk, e5, e6, e2, e3, e4, Nat.div_one, List.prod_cons,
        List.prod_nil]
      ring
    rw [hd]
    simp only [hs]
    split
    · rename_i hlt
      refine ⟨⟨_, rfl⟩, ?_⟩
      constructor
      · rintro ⟨d, hd⟩; simp at hd
      · rintro ⟨-, hle⟩; omega
    · rename_i hlt
      exact ⟨⟨_, rfl⟩, fun _ => ⟨hc, by omega⟩, fun _ => ⟨_, rfl⟩⟩
  · rename_i hc
    refine ⟨⟨_, rfl⟩, ?_⟩
    constructor
    · rintro ⟨d, hd⟩; simp at hd
    · rintro ⟨h, -⟩; exact absurd h hc

/-- **C36**, the model: on every graph, replacing the two layers by the new one leaves the function of
the model unchanged. -/
theorem C36_model_partial {N : Type*} [DecidableEq N] {g : MCT.Graph.Gr N} (wf : WellFormed g)
    {a b c' : N} {e : MCT.Graph.Edge N} (hout : edgesFrom g a = [e]) (hin : edgesInto g b = [e])
    (hc : c' ∉ g.nodes) (hao : ¬ IsOutput g a) (hai : a ∉ g.inputs)
    {c1 c2 : Conv K} {a1 a2 : Attrs} (hcc : c2.cin = c1.cout) (h1 : 0 < c1.kh) (h2 : 0 < c1.kw)
    (hk : c1.kind = .kerasConv ∨ (c1.kind = .torchConv ∧ c1.kh = c1.kw)) {d : Collapsed K}
    (hd : collapsePair c1 a1 c2 a2 = .ok (some d))
    (src src2 : P → Nat → Option P) (hsrc : ∀ p, src2 p 0 = some p) {I : Interp N (Nat → P → K)}
    (ha : ∀ args k, I a args k = channels c1.cout (c1.out src (args.headD 0)))
    (hb : ∀ args k, I b args k = channels c2.cout (c2.out src2 (args.headD 0)))
    (hcI : ∀ args k, I c' args k = channels c2.cout (d.layer.out src (args.headD 0))) :
    ∃ g', MCT.Graph.mergePair g a b c' = some g' ∧ WellFormed g' ∧ SameFunction g I g' I := by
  obtain ⟨g', h, hw, hs, _⟩ := MCT.Graph.C32_merge_two_layers_partial wf hout hin hc hao hai (I := I) (by
    intro args k
    rw [hcI, hb, List.headD_cons, ha]
    funext o p
    simp only [channels]
    by_cases ho : o < c2.cout
    · simp only [ho, if_true]
      exact (C36_collapsed_partial hcc h1 h2 hk hd).2.2.2.2.2.2.2 src src2 hsrc _ o p ho
    · simp only [ho, if_false])
  exact ⟨g', h, hw, hs⟩

/-- **C36**: a 1x1 convolution with stride 1 and without padding reads, at each position, that
position, which is the hypothesis about the second layer. -/
theorem C36_pointwise_reads {n p : Nat} (hp : p < n) (dil : Nat) : convAxis n 1 0 dil p 0 = some p := by
  simp [convAxis, hp]

/-- A 2x3 convolution with a bias and a 1x1 convolution. -/
def first23 : Conv ℚ := ⟨.kerasConv, 2, 3, 1, 2, 3, fun j => j, some (fun o => o + 1)⟩
def second11 : Conv ℚ := ⟨.kerasConv, 3, 2, 1, 1, 1, fun j => 2 * j - 3, some (fun o => o)⟩
def plain : Attrs := ⟨(1, 1), (1, 1), none⟩

example : ∃ d, collapsePair first23 plain second11 plain = .ok (some d) ∧
    d.layer.kernel 7 = second11.weight 1 0 0 * first23.kernel 9 +
      second11.weight 1 1 0 * first23.kernel 10 + second11.weight 1 2 0 * first23.kernel 11 := by
  refine ⟨_, rfl, ?_⟩; decide +kernel

/-- **C36 is violated** for PyTorch layers whose kernel is not square: whenever the substitution makes
a layer, its kernel has the height `2 * kw - kh` and the width `2 * kh - kw`. -/
theorem C36_torch_kernel_size {c1 c2 : Conv K} {a1 a2 : Attrs} (hk : c1.kind = .torchConv)
    (h1 : 0 < c1.kh) (h2 : 0 < c1.kw) {d : Collapsed K}
    (h : collapsePair c1 a1 c2 a2 = .ok (some d)) :
    d.layer.kh + c1.kh = 2 * c1.kw ∧ d.layer.kw + c1.kw = 2 * c1.kh ∧
    (c1.kh ≠ c1.kw → d.layer.kh ≠ c1.kh ∧ d.layer.kw ≠ c1.kw) := by
  rw [collapsePair] at h
  split at h
  swap
  · simp at h
  rename_i hc
  obtain ⟨⟨k1, k2⟩, -⟩ := hc
  split at h
  · simp at h
  rename_i d' hd
  split at h
  · simp at h
  simp only [Except.ok.injEq, Option.some.injEq] at h
  subst h
  simp only [collapseConv, eyePad, hk, k1, k2] at hd
  split at hd
  swap
  · simp at hd
  rename_i hle
  have := Option.some.inj hd
  subst this
  simp only
  omega

/-- The two kinds of failure: a 3x2 kernel becomes a 1x4 one, and for a 3x1 kernel PyTorch raises. -/
theorem C36_torch_non_square_violated :
    (∃ d, collapsePair (⟨.torchConv, 2, 3, 1, 3, 2, fun j => j, none⟩ : Conv ℚ) ⟨(1, 1), (1, 1), some (0, 0)⟩
      ⟨.torchConv, 3, 2, 1, 1, 1, fun j => j, none⟩ ⟨(1, 1), (1, 1), some (0, 0)⟩ = .ok (some d) ∧
      d.layer.kh = 1 ∧ d.layer.kw = 4) ∧
    collapsePair (⟨.torchConv, 2, 3, 1, 3, 1, fun j => j, none⟩ : Conv ℚ) ⟨(1, 1), (1, 1), some (0, 0)⟩
      ⟨.torchConv, 3, 2, 1, 1, 1, fun j => j, none⟩ ⟨(1, 1), (1, 1), some (0, 0)⟩ = .error () := by
  refine ⟨⟨_, rfl, ?_, ?_⟩, rfl⟩ <;> decide +kernel

/-- **C36 is violated** for a Keras pair whose second layer has one filter and no bias, when the first
has a bias: the bias of the new layer is a scalar and not a vector of one entry; in every other case
the bias is a vector with an entry for each filter. -/
theorem C36_bias_shape {c1 c2 : Conv K} {a1 a2 : Attrs} {d : Collapsed K}
    (h : collapsePair c1 a1 c2 a2 = .ok (some d)) :
    d.biasShape = if c1.bias.isSome ∧ c2.bias = none ∧ c1.kind = .kerasConv ∧ c2.cout = 1 then some []
      else if c1.bias.isSome ∨ c2.bias.isSome then some [c2.cout] else none := by
  rw [collapsePair] at h
  split at h
  swap
  · simp at h
  split at h
  · simp at h
  rename_i d' hd
  split at h
  · simp at h
  simp only [Except.ok.injEq, Option.some.injEq] at h
  subst h
  simp only [collapseConv] at hd
  split at hd
  swap
  · simp at hd
  have := Option.some.inj hd
  subst this
  simp only
  rcases hb1 : c1.bias with _ | b1 <;> rcases hb2 : c2.bias with _ | b2 <;>
    simp [collapseBias, hb1, hb2]
  split <;> simp

theorem C36_scalar_bias_violated : ∃ d, collapsePair first23 plain
    (⟨.kerasConv, 3, 1, 1, 1, 1, fun j => j, none⟩ : Conv ℚ) plain = .ok (some d) ∧
    d.biasShape = some [] := ⟨_, rfl, rfl⟩

/-- **C36**, the loop: whatever is matched, if a substitution either leaves the graph as it is or makes
it smaller, the repeated matching ends; what every substitution preserves, the loop preserves; and at
the end every match in the graph has been tried. -/
theorem C36_loop {G M : Type*} [DecidableEq M] (find : G → List M) (subst : G → M → G) (size : G → Nat)
    (h : ∀ g, ∀ m ∈ find g, subst g m = g ∨ size (subst g m) < size g)
    (R : G → G → Prop) (hrefl : ∀ g, R g g) (htrans : ∀ a b c, R a b → R b c → R a c)
    (hR : ∀ g, ∀ m ∈ find g, R g (subst g m)) (g : G) :
    ∃ fuel r, collapseLoop find subst fuel g [] = some r ∧ R g r.1 ∧ ∀ m ∈ find r.1, m ∈ r.2 := by
  obtain ⟨fuel, r, hr⟩ := loop_ends find subst size h (size g) _ g [] le_rfl le_rfl
  exact ⟨fuel, r, hr, loop_result find subst R hrefl htrans hR fuel g [] r hr⟩

/-- A chain of `n` layers whose first two are merged until one is left. -/
example : collapseLoop (fun n : Nat => if n ≤ 1 then [] else [n]) (fun n _ => n - 1) 10 5 [] =
    some (1, [5, 4, 3, 2]) := by decide

/-! ### C74: the shape the collapsed layer reports -/

/-- **C74**, as far as it holds: the new layer reports the channels it makes when both convolutions
have the same number of filters. -/
theorem C74_reported_channels_partial {c1 c2 : Conv K} {a1 a2 : Attrs} {d : Collapsed K}
    (h : collapsePair c1 a1 c2 a2 = .ok (some d)) :
    d.reportedChannels = d.layer.cout ↔ c1.cout = c2.cout := by
  rw [collapsePair] at h
  split at h
  swap
  · simp at h
  split at h
  · simp at h
  rename_i d' hd
  split at h
  · simp at h
  simp only [Except.ok.injEq, Option.some.injEq] at h
  subst h
  simp only [collapseConv] at hd
  split at hd
  swap
  · simp at hd
  have := Option.some.inj hd
  subst this
  rfl

/-- **C74 is violated**: the layer makes 2 channels and reports 3. -/
theorem C74_reported_channels_violated : ∃ d, collapsePair first23 plain second11 plain = .ok (some d) ∧
    d.layer.cout = 2 ∧ d.reportedChannels = 3 := ⟨_, rfl, rfl, rfl⟩

/-! ### C73: a layer and an added constant -/

/-- **C73**, as far as it holds: when the substitution makes a layer, it computes the layer plus the
constant, where a constant of one entry is added to every channel. -/
theorem C73_add_constant_partial {c c' : Conv K} {shape : List Nat} {const : Nat → K}
    (h : addConst c shape const = some c') (src : P → Nat → Option P) (X : Nat → P → K)
    (o : Nat) (p : P) :
    c'.out src X o p = c.out src X o p + const (if shape = [c.cout] then o else 0) := by
  rw [addConst] at h
  obtain ⟨b, hb, rfl⟩ := Option.map_eq_some_iff.1 h
  have hw : ∀ i t, Conv.weight ({ c with bias := some b } : Conv K) o i t = c.weight o i t :=
    fun i t => rfl
  simp only [Conv.out, hw, valueOr, Option.map_some, Option.getD_some, add_assoc]
  congr 1
  rw [addConstBias] at hb
  split at hb
  · rename_i hn
    split at hb
    · rename_i hs
      obtain rfl := Option.some.inj hb
      simp [hn, hs]
    · simp at hb
  · rename_i b' hn
    split at hb
    · obtain rfl := Option.some.inj hb
      simp only [hn, Option.map_some, Option.getD_some]
      ring
    · simp at hb

/-- **C73**: it makes one for every constant with an entry per channel, and, if the layer has a bias,
for scalars. -/
theorem C73_add_constant_applies (c : Conv K) (const : Nat → K) :
    (addConst c [c.cout] const).isSome = true ∧
    (c.bias.isSome = true → (addConst c [] const).isSome = true) := by
  rcases hb : c.bias with _ | b <;> simp [addConst, addConstBias, hb, fitsVector]

/-- **C73 is violated** for every constant that is not the same at all positions (rank 2 or more), and
for a scalar added to a layer without a bias: the new bias is not a vector with an entry per channel,
and the layer cannot be built. -/
theorem C73_constant_shape_violated (c : Conv K) (const : Nat → K) :
    (∀ shape : List Nat, 2 ≤ shape.length → addConst c shape const = none) ∧
    (c.bias = none → addConst c [] const = none) := by
  constructor
  · intro shape hs
    have h1 : shape ≠ [] := by rintro rfl; simp at hs
    have h2 : ∀ n, shape ≠ [n] := by rintro n rfl; simp at hs
    rcases hb : c.bias with _ | b <;> simp [addConst, addConstBias, hb, fitsVector, h1, h2]
  · intro hb
    simp [addConst, addConstBias, hb]

example : ∃ c', addConst first23 [3] (fun o => o) = some c' ∧ c'.bias.map (fun b => b 2) = some 5 := by
  refine ⟨_, rfl, ?_⟩; decide +kernel

/-! ### C67: a convolution and its own input added to its output -/

/-- **C67**, the layer, as far as it holds: for a convolution without groups from a number of channels
to the same number, whose middle tap reads the position it writes, the new kernel makes the layer
compute its output plus its input. -/
theorem C67_kernel_partial {c : Conv K} (hv : c.Valid) (hg : c.groups = 1) (hc : c.cout = c.cin)
    (h1 : 0 < c.kh) (h2 : 0 < c.kw) {w : Nat → K} (h : residualKernel c = some w)
    (src : P → Nat → Option P) (X : Nat → P → K) {o : Nat} (ho : o < c.cout) {p : P}
    (hsrc : src p ((c.kh - 1) / 2 * c.kw + (c.kw - 1) / 2) = some p) :
    Conv.out { c with kernel := w } src X o p = c.out src X o p + X o p := by
  have hmid : (c.kh - 1) / 2 * c.kw + (c.kw - 1) / 2 < c.kh * c.kw := by
    have a1 : (c.kh - 1) / 2 + 1 ≤ c.kh := by omega
    have a2 : (c.kw - 1) / 2 < c.kw := by omega
    calc (c.kh - 1) / 2 * c.kw + (c.kw - 1) / 2 < (c.kh - 1) / 2 * c.kw + c.kw := by omega
      _ = ((c.kh - 1) / 2 + 1) * c.kw := by ring
      _ ≤ c.kh * c.kw := Nat.mul_le_mul_right _ a1
  simp only [Conv.out]
  have key : ∑ i ∈ range c.cin, ∑ t ∈ range (c.kh * c.kw),
      Conv.weight { c with kernel := w } o i t * tap X i (src p t) =
      ∑ i ∈ range c.cin, ∑ t ∈ range (c.kh * c.kw), c.weight o i t * tap X i (src p t) + X o p := by
    rw [← sub_eq_iff_eq_add', ← sum_sub_distrib, sum_eq_single o]
    · rw [← sum_sub_distrib, sum_eq_single ((c.kh - 1) / 2 * c.kw + (c.kw - 1) / 2)]
      · rw [residual_weight hv hg h1 h2 h ho (hc ▸ ho) hmid, if_pos ⟨rfl, rfl⟩, hsrc, tap]
        ring
      · intro t ht hne
        rw [residual_weight hv hg h1 h2 h ho (hc ▸ ho) (mem_range.1 ht), if_neg (fun hh => hne hh.2)]
        ring
      · intro hh; exact absurd (mem_range.2 hmid) hh
    · intro i hi hne
      rw [← sum_sub_distrib]
      apply sum_eq_zero
      intro t ht
      rw [residual_weight hv hg h1 h2 h ho (mem_range.1 hi) (mem_range.1 ht),
        if_neg (fun hh => hne hh.1)]
      ring
    · intro hh; exact absurd (mem_range.2 (hc ▸ ho)) hh
  rw [key]
  ring

/-- **C67**: the middle tap reads the position it writes under "same" padding with stride 1, for every
kernel size without dilation and for odd kernel sizes with any dilation. -/
theorem C67_same_padding {n k dil p : Nat} (hk : 0 < k) (hp : p < n) (h : dil = 1 ∨ k % 2 = 1) :
    convAxis n 1 ((k - 1) * dil / 2) dil p ((k - 1) / 2) = some p := by
  have e : (k - 1) / 2 * dil = (k - 1) * dil / 2 := by
    rcases h with rfl | h
    · simp
    · obtain ⟨m, rfl⟩ : ∃ m, k = 2 * m + 1 := ⟨k / 2, by omega⟩
      have : (2 * m + 1 - 1) = 2 * m := by omega
      rw [this, Nat.mul_div_cancel_left _ (by omega : 0 < 2), Nat.mul_assoc,
        Nat.mul_div_cancel_left _ (by omega : 0 < 2)]
  simp only [convAxis, Nat.mul_one, e]
  rw [if_pos ⟨by omega, by omega⟩, Nat.add_sub_cancel]

/-- **C67**, the model: on every graph, for such a convolution, replacing it and the addition by the new
convolution leaves the function of the model unchanged. -/
theorem C67_model_partial {N : Type*} [DecidableEq N] {g : MCT.Graph.Gr N} (wf : WellFormed g)
    {q a b c' : N} {e1 e2 e3 : MCT.Graph.Edge N} (hina : edgesInto g a = [e1])
    (houta : edgesFrom g a = [e3]) (hinb : (edgesInto g b).Perm [e2, e3]) (hq1 : e1.src = q)
    (hq2 : e2.src = q) (hc' : c' ∉ g.nodes) (hao : ¬ IsOutput g a) (hsi : e1.si = e2.si)
    {c : Conv K} (hv : c.Valid) (hg : c.groups = 1) (hc : c.cout = c.cin) (h1 : 0 < c.kh)
    (h2 : 0 < c.kw) {w : Nat → K} (h : residualKernel c = some w) (src : P → Nat → Option P)
    (hsrc : ∀ p, src p ((c.kh - 1) / 2 * c.kw + (c.kw - 1) / 2) = some p)
    {I : Interp N (Nat → P → K)}
    (ha : ∀ args k, I a args k = channels c.cout (c.out src (args.headD 0)))
    (hb : ∀ x y k, I b [x, y] k = channels c.cout (x + y))
    (hcI : ∀ args k, I c' args k =
      channels c.cout (Conv.out { c with kernel := w } src (args.headD 0))) :
    ∃ g', MCT.Graph.collapseResidual g a b c' = some g' ∧ WellFormed g' ∧ SameFunction g I g' I := by
  have key : ∀ x : Nat → P → K, channels c.cout (Conv.out { c with kernel := w } src x) =
      channels c.cout (x + channels c.cout (c.out src x)) := by
    intro x
    funext o p
    simp only [channels]
    by_cases ho : o < c.cout
    · simp only [ho, if_true, Pi.add_apply, channels]
      rw [C67_kernel_partial hv hg hc h1 h2 h src x ho (hsrc p), add_comm]
    · simp only [ho, if_false]
  obtain ⟨g', h, hw, hs, _⟩ := MCT.Graph.C67_residual_partial wf hina houta hinb hq1 hq2 hc' hao hsi
    (I := I)
    (by intro x k; rw [hb, hcI, ha, List.headD_cons, key])
    (by intro x k; rw [hb, hcI, ha, List.headD_cons, key, add_comm])
  exact ⟨g', h, hw, hs⟩

/-- A convolution of 3 channels with a 2x3 kernel. -/
def square3 : Conv ℚ := ⟨.torchConv, 3, 3, 1, 2, 3, fun j => j, some (fun o => o)⟩

example : square3.Valid ∧ (residualKernel square3).isSome = true := by
  refine ⟨⟨?_, ?_, ?_, ?_, ?_, ?_, ?_⟩, ?_⟩ <;> decide

/-- **C67 is violated** for grouped convolutions from a number of channels to the same number: the
library fails. -/
theorem C67_grouped_fails {c : Conv K} (hv : c.Valid) (hg : 1 < c.groups) (hc : c.cout = c.cin) :
    residualKernel c = none := by
  have := Nat.div_lt_self hv.cin hg
  simp only [residualKernel]
  rw [if_neg (by omega)]

/-- **C67 is violated** when the addition broadcasts the one channel of the convolution: the sum of the
second input channel and the output of the convolution is lost, the new layer has one channel. -/
theorem C67_broadcast_violated :
    let c : Conv ℚ := ⟨.kerasConv, 2, 1, 1, 1, 1, fun _ => 1, none⟩
    c.Valid ∧ ∃ w, residualKernel c = some w ∧ ∀ o,
      Conv.out { c with kernel := w } (fun p _ => some p) (fun i (_ : Nat) => if i = 1 then 5 else 0) o 0 ≠
        c.out (fun p _ => some p) (fun i (_ : Nat) => if i = 1 then 5 else 0) 0 0 + 5 := by
  refine ⟨⟨?_, ?_, ?_, ?_, ?_, ?_, ?_⟩, _, rfl, ?_⟩
  · decide
  · decide
  · decide
  · decide
  · decide
  · decide
  · decide
  · intro o
    simp only [Conv.out, valueOr, Option.map_none, Option.getD_none, add_zero]
    have hw : ∀ w' : Nat → ℚ, Conv.weight (⟨.kerasConv, 2, 1, 1, 1, 1, w', none⟩ : Conv ℚ) o 1 0 =
        if 0 = o then w' (1 + o) else 0 := by
      intro w'
      simp [Conv.weight]
    simp only [Nat.mul_one, sum_range_one, sum_range_succ, sum_range_zero, tap, hw]
    have : Conv.weight (⟨.kerasConv, 2, 1, 1, 1, 1, fun _ => 1, none⟩ : Conv ℚ) 0 1 0 = 1 := by
      decide +kernel
    rw [this]
    by_cases ho : 0 = o
    · subst ho
      rw [if_pos rfl]
      decide +kernel
    · rw [if_neg ho]
      norm_num

/-- **C67 is violated** for an even kernel with a dilation: the middle tap reads another position. -/
theorem C67_dilated_even_violated : convAxis 5 1 ((2 - 1) * 2 / 2) 2 1 ((2 - 1) / 2) = some 0 := by
  decide

/-! ### C70: a depthwise convolution as a grouped one -/

/-- **C70**, the layer: the grouped convolution that replaces a depthwise one with a multiplier other
than 1 computes the same, for every kernel, bias, geometry and input, and is a valid layer. -/
theorem C70_depthwise_layer {c c' : Conv K} (hv : c.Valid) (hk : c.kind = .kerasDepthwise)
    (h : dwToConv c = some c') (src : P → Nat → Option P) (X : Nat → P → K) (o : Nat) (p : P) :
    c'.out src X o p = c.out src X o p ∧ c'.Valid ∧ c'.kind = .kerasConv ∧ c'.cout = c.cout := by
  have hw := dw_weight hv hk h
  rw [dwToConv] at h
  split at h
  · simp at h
  have hcout : c.cin * (c.cout / c.cin) = c.cout := Nat.mul_div_cancel' (hv.depthwise hk)
  obtain rfl := Option.some.inj h
  refine ⟨?_, ?_, rfl, hcout⟩
  · simp only [Conv.out]
    congr 1
    exact sum_congr rfl (fun i _ => sum_congr rfl (fun t _ => by rw [hw]))
  · refine ⟨hv.cin, ?_, hv.cin, dvd_refl _, ?_, ?_, ?_⟩
    · simp only [hcout]; exact hv.cout
    · exact Dvd.intro _ rfl
    · intro hh; simp at hh
    · intro hh; simp at hh

/-- **C70**: exactly the layers with a multiplier other than 1 are replaced. -/
theorem C70_depthwise_when {c : Conv K} (hv : c.Valid) (mult : Nat) (hm : c.cout = c.cin * mult) :
    (∃ c', dwToConv c = some c') ↔ mult ≠ 1 := by
  have : c.cout / c.cin = mult := by rw [hm]; exact Nat.mul_div_cancel_left _ hv.cin
  rw [dwToConv, this]
  by_cases h : mult = 1 <;> simp [h]

example : ∃ c', dwToConv depthwise2 = some c' ∧ c'.groups = 2 ∧ c'.cout = 4 := ⟨_, rfl, rfl, rfl⟩

end MCT.Subst
