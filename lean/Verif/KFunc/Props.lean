/-
C124, C125: functional convolutions and matrix products become layers that compute the same.
-/
import Verif.KFunc.Model
import Mathlib.Tactic.Linarith
import Mathlib.Algebra.Ring.Int.Defs

namespace MCT.KFunc

/-! ### Convolutions -/

section
variable {R : Type} [Add R] [Zero R]

theorem parse_last (v : Val) (p : ℕ × ℕ) (h : tfPair false v = some p) : parse v = some [p.1, p.2] := by
  unfold tfPair at h
  match v with
  | .missing => simp [tfSeq] at h; simp [parse, ← h]
  | .int n => simp [tfSeq] at h; simp [parse, ← h]
  | .list [] => simp [tfSeq] at h
  | .list [a] => simp [tfSeq] at h; simp [parse, ← h]
  | .list [a, b] => simp [tfSeq] at h; simp [parse, ← h]
  | .list [a, b, c] => simp [tfSeq] at h
  | .list [a, b, c, d] =>
      simp [tfSeq] at h
      obtain ⟨⟨h1, h2⟩, h3⟩ := h
      simp [parse, ← h3, h1]
  | .list (a :: b :: c :: d :: e :: t) => simp [tfSeq] at h

theorem parse_short (first : Bool) (v : Val) (p : ℕ × ℕ) (h : tfPair first v = some p)
    (hv : ∀ a b c d, v ≠ .list [a, b, c, d]) : parse v = some [p.1, p.2] := by
  cases first with
  | false => exact parse_last v p h
  | true =>
      unfold tfPair at h
      match v with
      | .missing => simp [tfSeq] at h; simp [parse, ← h]
      | .int n => simp [tfSeq] at h; simp [parse, ← h]
      | .list [] => simp [tfSeq] at h
      | .list [a] => simp [tfSeq] at h; simp [parse, ← h]
      | .list [a, b] => simp [tfSeq] at h; simp [parse, ← h]
      | .list [a, b, c] => simp [tfSeq] at h
      | .list [a, b, c, d] => exact absurd rfl (hv a b c d)
      | .list (a :: b :: c :: d :: e :: t) => simp [tfSeq] at h

theorem tfConf_some {channels : ℕ} {c : Call} {f : Conf} (h : tfConf channels c = some f) :
    ∃ s d kh kw cin co, tfPair c.fmt.first c.strides = some s ∧ tfPair c.fmt.first c.dilations = some d ∧
      c.kernel = [kh, kw, cin, co] ∧ cin ≠ 0 ∧ channels % cin = 0 ∧
      f = ⟨s, d, tfPad c.pad, c.fmt.first, channels / cin⟩ := by
  unfold tfConf at h
  cases hs : tfPair c.fmt.first c.strides with
  | none => rw [hs] at h; simp at h
  | some s =>
      cases hd : tfPair c.fmt.first c.dilations with
      | none => rw [hs, hd] at h; simp at h
      | some d =>
          rw [hs, hd, Option.bind_some, Option.bind_some] at h
          split at h
          next a b cin co hk =>
            split at h
            next hc => exact ⟨s, d, a, b, cin, co, rfl, rfl, hk, hc.1, hc.2, (Option.some_inj.mp h).symm⟩
            · cases h
          · cases h

theorem convLayer_eq (c : Call) (nx : Next R) (hk : c.kernel.length = 4) (s d : List ℕ)
    (hs : parse c.strides = some s) (hd : parse c.dilations = some d) (hf : c.fmt ≠ .null)
    (hp : ∀ l, c.pad ≠ .explicit l) :
    convLayer c nx = .layer ⟨s, d, tfPad c.pad, c.fmt.first, c.kernel, extractBias nx⟩ := by
  unfold convLayer
  rw [if_neg (by simp [hk]), hs, hd]
  cases hpd : c.pad with
  | explicit l => exact absurd hpd (hp l)
  | missing => cases hfm : c.fmt with
    | null => exact absurd hfm hf
    | absent => rfl
    | nhwc => rfl
    | nchw => rfl
  | same => cases hfm : c.fmt with
    | null => exact absurd hfm hf
    | absent => rfl
    | nhwc => rfl
    | nchw => rfl
  | valid => cases hfm : c.fmt with
    | null => exact absurd hfm hf
    | absent => rfl
    | nhwc => rfl
    | nchw => rfl

theorem convLayer_explicit (c : Call) (nx : Next R) (l : List ℕ) (hp : c.pad = .explicit l) :
    convLayer c nx = .skip := by
  unfold convLayer
  rw [hp]
  by_cases hk : c.kernel.length ≠ 4
  · rw [if_pos hk]
  · rw [if_neg hk]
    cases parse c.strides <;> rfl

/-- **C124** (convolution, channels last).  Every call of a convolution function that TensorFlow accepts, with any
strides, dilations and padding, one group, and followed by nothing, by the addition of a vector with one element per
filter or by `bias_add`, is replaced by a layer that computes the same. -/
theorem C124_conv (conv : Conf → Ten R) (shape : Conf → Shape) (channels : ℕ) (c : Call) (nx : Next R) (y : Ten R)
    (hf : c.fmt = .absent ∨ c.fmt = .nhwc) (hg : c.kernel[2]? = some channels)
    (hlast : ∀ f, some (shape f).last = c.kernel[3]?)
    (hadd : ∀ b, nx = .add b → some b.length = c.kernel[3]?)
    (hbias : ∀ b fmt, nx = .biasAdd b fmt → fmt.first = false)
    (h : original conv shape channels c nx = some y) : replaced conv shape channels c nx = some y := by
  have hfirst : c.fmt.first = false := by rcases hf with h | h <;> rw [h] <;> rfl
  have hnull : c.fmt ≠ .null := by rcases hf with h | h <;> rw [h] <;> decide
  unfold replaced
  by_cases hpe : ∃ l, c.pad = .explicit l
  · obtain ⟨l, hl⟩ := hpe
    rw [convLayer_explicit c nx l hl]
    exact h
  · have hpad : ∀ l, c.pad ≠ .explicit l := fun l hl => hpe ⟨l, hl⟩
    unfold original at h
    cases hc : tfConf channels c with
    | none => rw [hc] at h; cases h
    | some f =>
        obtain ⟨s, d, kh, kw, cin, co, h1, h2, h3, h4, _, h6⟩ := tfConf_some hc
        rw [hfirst] at h1 h2
        have hcin : cin = channels := by rw [h3] at hg; simpa using hg
        subst hcin
        rw [convLayer_eq c nx (by rw [h3]; rfl) _ _ (parse_last _ _ h1) (parse_last _ _ h2) hnull hpad]
        dsimp only
        rw [hc, Option.bind_some] at h
        unfold runLayer layerConf
        rw [h3]
        dsimp only
        rw [if_pos rfl, Option.bind_some]
        have hconf : (⟨(s.1, s.2), (d.1, d.2), tfPad c.pad, c.fmt.first, 1⟩ : Conf) = f := by
          rw [h6, Nat.div_self (Nat.pos_of_ne_zero h4)]
        rw [hconf]
        have hl := hlast f
        rw [h3] at hl
        have hl' : (shape f).last = co := Option.some_inj.mp hl
        cases nx with
        | other => exact h
        | add b =>
            dsimp only [extractBias] at h ⊢
            have hnx := hadd b rfl
            rw [h3] at hnx
            have hb : b.length = co := Option.some_inj.mp hnx
            unfold tfAdd at h
            rw [if_pos (hb.trans hl'.symm)] at h
            rw [if_pos (by simp [hb]), hfirst]
            exact h
        | biasAdd b fmt =>
            dsimp only [extractBias] at h ⊢
            unfold tfBiasAdd at h
            rw [hbias b fmt rfl] at h
            by_cases hb : b.length = (shape f).last
            · rw [if_pos (by simpa using hb)] at h
              rw [if_pos (by simp [hb, hl']), hfirst]
              exact h
            · rw [if_neg (by simpa using hb)] at h
              cases h

example : replaced (R := ℤ) (fun f _ _ _ _ => f.strides.1) (fun _ => ⟨7, 8⟩) 3
    ⟨.list [1, 2, 2, 1], .int 1, .same, .absent, [3, 3, 3, 8]⟩ .other = some fun _ _ _ _ => 2 := by
  apply C124_conv
  · exact Or.inl rfl
  · rfl
  · intro f; rfl
  · intro b hb; cases hb
  · intro b fmt hb; cases hb
  · rfl

/-- **C124** (convolution, channels first).  With strides and dilations given as a number, one or two numbers, or not
at all, and no bias. -/
theorem C124_conv_first_partial (conv : Conf → Ten R) (shape : Conf → Shape) (channels : ℕ) (c : Call) (y : Ten R)
    (hf : c.fmt = .nchw) (hg : c.kernel[2]? = some channels)
    (hs : ∀ a b d e, c.strides ≠ .list [a, b, d, e]) (hd : ∀ a b d e, c.dilations ≠ .list [a, b, d, e])
    (h : original conv shape channels c .other = some y) : replaced conv shape channels c .other = some y := by
  unfold replaced
  by_cases hpe : ∃ l, c.pad = .explicit l
  · obtain ⟨l, hl⟩ := hpe
    rw [convLayer_explicit c .other l hl]
    exact h
  · have hpad : ∀ l, c.pad ≠ .explicit l := fun l hl => hpe ⟨l, hl⟩
    unfold original at h
    cases hc : tfConf channels c with
    | none => rw [hc] at h; cases h
    | some f =>
        obtain ⟨s, d, kh, kw, cin, co, h1, h2, h3, h4, _, h6⟩ := tfConf_some hc
        have hcin : cin = channels := by rw [h3] at hg; simpa using hg
        subst hcin
        rw [convLayer_eq c .other (by rw [h3]; rfl) _ _ (parse_short _ _ _ h1 hs) (parse_short _ _ _ h2 hd)
          (by rw [hf]; decide) hpad]
        dsimp only
        rw [hc, Option.bind_some] at h
        unfold runLayer layerConf
        rw [h3]
        dsimp only
        rw [if_pos rfl, Option.bind_some]
        have hconf : (⟨(s.1, s.2), (d.1, d.2), tfPad c.pad, c.fmt.first, 1⟩ : Conf) = f := by
          rw [h6, Nat.div_self (Nat.pos_of_ne_zero h4)]
        rw [hconf]
        exact h

/-- **C124** (violation).  With the channels first and four strides, as TensorFlow documents them, the layer gets the
strides `(1, s)` instead of `(s, t)`. -/
theorem C124_first_strides_violated (conv : Conf → Ten R) (shape : Conf → Shape) (channels kh kw co s t : ℕ)
    (hc : channels ≠ 0) :
    original conv shape channels ⟨.list [1, 1, s, t], .missing, .valid, .nchw, [kh, kw, channels, co]⟩ .other =
      some (conv ⟨(s, t), (1, 1), .valid, true, 1⟩) ∧
    replaced conv shape channels ⟨.list [1, 1, s, t], .missing, .valid, .nchw, [kh, kw, channels, co]⟩ .other =
      some (conv ⟨(1, s), (1, 1), .valid, true, 1⟩) := by
  constructor
  · simp [original, tfConf, tfPair, tfSeq, Fmt.first, tfPad, hc, Nat.div_self (Nat.pos_of_ne_zero hc)]
  · simp [replaced, convLayer, parse, runLayer, layerConf, Fmt.first, tfPad, extractBias]

/-- **C124** (violation).  With the channels first a vector is added along the width by `tf.add`, but along the channels
by the layer. -/
theorem C124_first_bias_violated (conv : Conf → Ten R) (shape : Conf → Shape) (channels kh kw : ℕ) (b : List R)
    (hc : channels ≠ 0) (hw : ∀ f, (shape f).last = b.length) :
    original conv shape channels ⟨.missing, .missing, .valid, .nchw, [kh, kw, channels, b.length]⟩ (.add b) =
      some (addAxis false (fun i => b.getD i 0) (conv ⟨(1, 1), (1, 1), .valid, true, 1⟩)) ∧
    replaced conv shape channels ⟨.missing, .missing, .valid, .nchw, [kh, kw, channels, b.length]⟩ (.add b) =
      some (addAxis true (fun i => b.getD i 0) (conv ⟨(1, 1), (1, 1), .valid, true, 1⟩)) := by
  constructor
  · simp [original, tfConf, tfPair, tfSeq, Fmt.first, tfPad, hc, Nat.div_self (Nat.pos_of_ne_zero hc), tfAdd, hw]
  · simp [replaced, convLayer, parse, runLayer, layerConf, Fmt.first, tfPad, extractBias]

/-- **C124** (violation).  A convolution with several groups, which the function computes for a kernel with fewer input
channels than the input, becomes a layer that cannot be built. -/
theorem C124_groups_violated (conv : Conf → Ten R) (shape : Conf → Shape) (g cin kh kw co : ℕ) (hc : cin ≠ 0)
    (hg : g ≠ 1) :
    original conv shape (g * cin) ⟨.missing, .missing, .valid, .absent, [kh, kw, cin, co]⟩ .other =
      some (conv ⟨(1, 1), (1, 1), .valid, false, g⟩) ∧
    replaced conv shape (g * cin) ⟨.missing, .missing, .valid, .absent, [kh, kw, cin, co]⟩ .other = none := by
  constructor
  · simp [original, tfConf, tfPair, tfSeq, Fmt.first, tfPad, hc, Nat.mul_div_cancel _ (Nat.pos_of_ne_zero hc)]
  · have : cin ≠ g * cin := by
      intro e
      apply hg
      have h2 : 1 * cin = g * cin := by rw [one_mul]; exact e
      exact (Nat.eq_of_mul_eq_mul_right (Nat.pos_of_ne_zero hc) h2).symm
    simp [replaced, convLayer, parse, runLayer, layerConf, Fmt.first, tfPad, extractBias, this]

/-- **C124** (violation).  A vector with one element, added to all channels, becomes a bias that the layer refuses. -/
theorem C124_scalar_bias_violated (conv : Conf → Ten R) (shape : Conf → Shape) (channels kh kw co : ℕ) (b : R)
    (hc : channels ≠ 0) (hco : co ≠ 1) (hlast : ∀ f, (shape f).last = co) :
    original conv shape channels ⟨.missing, .missing, .valid, .absent, [kh, kw, channels, co]⟩ (.add [b]) =
      some (addAxis false (fun _ => b) (conv ⟨(1, 1), (1, 1), .valid, false, 1⟩)) ∧
    replaced conv shape channels ⟨.missing, .missing, .valid, .absent, [kh, kw, channels, co]⟩ (.add [b]) = none := by
  constructor
  · simp [original, tfConf, tfPair, tfSeq, Fmt.first, tfPad, hc, Nat.div_self (Nat.pos_of_ne_zero hc), tfAdd, hlast,
      Ne.symm hco]
  · simp [replaced, convLayer, parse, runLayer, layerConf, Fmt.first, tfPad, extractBias, Ne.symm hco]

/-- **C124** (violation).  A format given as `None`, the default of `tf.nn.convolution`, is an error. -/
theorem C124_none_format_violated (conv : Conf → Ten R) (shape : Conf → Shape) (channels kh kw co : ℕ)
    (hc : channels ≠ 0) :
    original conv shape channels ⟨.missing, .missing, .valid, .null, [kh, kw, channels, co]⟩ .other =
      some (conv ⟨(1, 1), (1, 1), .valid, false, 1⟩) ∧
    replaced conv shape channels ⟨.missing, .missing, .valid, .null, [kh, kw, channels, co]⟩ .other = none := by
  constructor
  · simp [original, tfConf, tfPair, tfSeq, Fmt.first, tfPad, hc, Nat.div_self (Nat.pos_of_ne_zero hc)]
  · simp [replaced, convLayer, parse]

end

/-! ### Depthwise convolutions -/

/-- **C124** (depthwise, channels last).  A call that TensorFlow accepts is left as it is or replaced by a layer with
the same strides, dilations and padding. -/
theorem C124_depthwise (c : DwCall) (f : DwConf) (hf : c.fmt.first = false) (hk : c.kernel.length = 4)
    (h : tfDwConf c = some f) :
    dwLayer c = some none ∨ ∃ l, dwLayer c = some (some l) ∧ dwLayerConf l = some f ∧
      c.kernel[3]? = some l.multiplier := by
  unfold tfDwConf at h
  rw [hf] at h
  obtain ⟨m, hm⟩ : ∃ m, c.kernel[3]? = some m := ⟨c.kernel[3], List.getElem?_eq_getElem (by omega)⟩
  unfold dwLayer
  rw [hm]
  dsimp only
  match hs : c.strides, h with
  | none, h => simp at h
  | some [], h => simp at h
  | some [_], h => simp at h
  | some [_, _], h => simp at h
  | some [_, _, _], h => simp at h
  | some (_ :: _ :: _ :: _ :: _ :: _), h => simp at h
  | some [a, b, d, e], h =>
      dsimp only at h
      by_cases hae : a = 1 ∧ e = 1
      · obtain ⟨rfl, rfl⟩ := hae
        simp only [Bool.false_eq_true, if_false, and_self, if_true, Option.bind_some] at h
        cases hp : c.pad with
        | explicit l => left; rfl
        | missing =>
            right
            refine ⟨_, rfl, ?_, rfl⟩
            rw [hp] at h
            generalize (c.rate.orElse fun _ => c.dilations) = r at h ⊢
            match r, h with
            | none, h => simpa [dwLayerConf, tfPad] using h
            | some [x, z], h => simpa [dwLayerConf, tfPad] using h
            | some [], h => simp at h
            | some [_], h => simp at h
            | some (_ :: _ :: _ :: _), h => simp at h
        | same =>
            right
            refine ⟨_, rfl, ?_, rfl⟩
            rw [hp] at h
            generalize (c.rate.orElse fun _ => c.dilations) = r at h ⊢
            match r, h with
            | none, h => simpa [dwLayerConf, tfPad] using h
            | some [x, z], h => simpa [dwLayerConf, tfPad] using h
            | some [], h => simp at h
            | some [_], h => simp at h
            | some (_ :: _ :: _ :: _), h => simp at h
        | valid =>
            right
            refine ⟨_, rfl, ?_, rfl⟩
            rw [hp] at h
            generalize (c.rate.orElse fun _ => c.dilations) = r at h ⊢
            match r, h with
            | none, h => simpa [dwLayerConf, tfPad] using h
            | some [x, z], h => simpa [dwLayerConf, tfPad] using h
            | some [], h => simp at h
            | some [_], h => simp at h
            | some (_ :: _ :: _ :: _), h => simp at h
      · simp [hae] at h

example : (dwLayer ⟨some [1, 2, 2, 1], none, some [1, 1], .same, .absent, [3, 3, 4, 1]⟩).bind
    (fun o => o.bind dwLayerConf) = some ⟨(2, 2), (1, 1), .same, false⟩ := by decide

/-- **C124** (violation).  With the channels first, a depthwise call becomes a layer with the channels last and the
strides `(1, s)`. -/
theorem C124_depthwise_first_violated (kh kw c s t : ℕ) :
    tfDwConf ⟨some [1, 1, s, t], none, none, .valid, .nchw, [kh, kw, c, 1]⟩ = some ⟨(s, t), (1, 1), .valid, true⟩ ∧
    ∃ l, dwLayer ⟨some [1, 1, s, t], none, none, .valid, .nchw, [kh, kw, c, 1]⟩ = (if 1 < t then some none else some (some l)) ∧
      dwLayerConf l = some ⟨(1, s), (1, 1), .valid, false⟩ := by
  refine ⟨by simp [tfDwConf, Fmt.first, tfPad], ⟨[1, s], [1, 1], .valid, 1,
    ["depth_multiplier", "kernel_size", "activation", "strides", "padding", "dilation_rate", "use_bias"]⟩, ?_, rfl⟩
  by_cases h : 1 < t
  · simp [dwLayer, h]
  · simp [dwLayer, h, tfPad]

/-- **C124** (violation).  A depthwise call with a multiplier other than 1 becomes a layer on which the replacement of
depthwise layers fails: it has no initializer. -/
theorem C124_multiplier_violated (c : DwCall) (l : DwLayer) (h : dwLayer c = some (some l)) (hm : l.multiplier ≠ 1) :
    dwToConv l = none := by
  have ha : l.attrs = ["depth_multiplier", "kernel_size", "activation", "strides", "padding", "dilation_rate", "use_bias"] := by
    unfold dwLayer at h
    split at h
    · cases h
    · split at h
      · simp at h
      · split at h
        · cases h
        · simp at h
        · simp only [Option.some_inj] at h
          rw [← h]
  unfold dwToConv
  rw [if_neg hm, ha]
  rfl

example : ∃ l, dwLayer ⟨some [1, 1, 1, 1], none, none, .valid, .absent, [3, 3, 4, 2]⟩ = some (some l) ∧
    l.multiplier ≠ 1 := ⟨_, rfl, by decide⟩

/-! ### Matrix products -/

section
variable {R : Type} [Semiring R]

/-- **C125**.  A product of a tensor with a constant, the second factor transposed or not by name or position, is
computed by the dense layer that replaces it. -/
theorem C125_matmul (c : MatCall) (x w : Mat R) (ha : c.transA = false)
    (hc : c.kwTransB.isSome → c.args.length < 2) :
    matmulReplaced c x (.second w) (matmulTF c x w) = matmulTF c x w := by
  unfold matmulReplaced denseKernel matmulTF dense
  rw [ha]
  dsimp only
  have hb : (c.kwTransB.getD false || (decide (2 ≤ c.args.length) && c.args.getD 1 false)) = c.transB := by
    unfold MatCall.transB
    cases hk : c.kwTransB with
    | none =>
        simp only [Option.getD_none, Bool.false_or]
        match c.args with
        | [] => rfl
        | [_] => rfl
        | _ :: b :: _ => simp
    | some b =>
        have := hc (by rw [hk]; rfl)
        simp only [Option.getD_some]
        have h2 : decide (2 ≤ c.args.length) = false := by simpa using this
        rw [h2]
        simp
  rw [hb]
  simp [opAttrs]

/-- **C125**.  Constants with other axes leave the product as it is. -/
theorem C125_other (c : MatCall) (x : Mat R) (o : Option (Mat R)) : matmulReplaced c x .secondOther o = o := rfl

/-- **C125** (violation).  A transposed first factor is not noticed: the layer computes the product without the
transposition; it fails if the numbers of columns and rows of the tensor differ, and is silently wrong otherwise. -/
theorem C125_transpose_a_violated (c : MatCall) (x w : Mat R) (ha : c.transA = true) (hb : c.transB = false)
    (hc : c.kwTransB.isSome → c.args.length < 2) :
    matmulTF c x w = Mat.mul x.tr w ∧ matmulReplaced c x (.second w) (matmulTF c x w) = Mat.mul x w := by
  constructor
  · unfold matmulTF
    rw [ha, hb]
    rfl
  · have h := C125_matmul (R := R) ⟨some false, c.kwTransB, c.args⟩ x w (by simp [MatCall.transA]) hc
    have e1 : matmulReplaced (R := R) ⟨some false, c.kwTransB, c.args⟩ x (.second w)
        (matmulTF ⟨some false, c.kwTransB, c.args⟩ x w) = matmulReplaced c x (.second w) (matmulTF c x w) := by
      simp [matmulReplaced, denseKernel, opAttrs]
    rw [← e1, h]
    have hb' : MatCall.transB ⟨some false, c.kwTransB, c.args⟩ = false := hb
    unfold matmulTF
    rw [hb']
    simp [MatCall.transA]

example : MatCall.transA ⟨some true, none, []⟩ = true ∧
    (((Mat.mul (⟨2, 2, fun i j => (2 * i + j : ℤ)⟩ : Mat ℤ).tr ⟨2, 1, fun _ _ => 1⟩).map fun m => m.at_ 0 0) = some 2) ∧
    (((Mat.mul (⟨2, 2, fun i j => (2 * i + j : ℤ)⟩ : Mat ℤ) ⟨2, 1, fun _ _ => 1⟩).map fun m => m.at_ 0 0) = some 1) := by
  decide

/-- **C125** (violation).  A product whose first factor is the constant is an error. -/
theorem C125_first_violated (c : MatCall) (x : Mat R) (o : Option (Mat R)) : matmulReplaced c x .first o = none := rfl

end

end MCT.KFunc
