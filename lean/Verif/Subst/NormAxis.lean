/-
Folding a Keras batch normalization that is not along the channels.

Sources (all under /repo/model_compression_toolkit/core):
  keras/graph_substitutions/substitutions/batchnorm_folding.py 34-42   the matchers: any BatchNormalization
  keras/graph_substitutions/substitutions/batchnorm_folding.py 60-79   update_kernel_for_bn_folding_fn
  common/substitutions/batchnorm_folding.py 94-128                     the folding, which does not read `axis`
-/
import Verif.Subst.Props

namespace MCT.NormAxis
open MCT.Subst MCT.SubstSpec Finset

set_option linter.unusedVariables false

variable {K P : Type*} [Field K]

/-! ## Model -/

/-- `BatchNormalizationFolding.substitute` with `update_kernel_for_bn_folding_fn` on a normalization
whose parameters have `len` entries.  Neither reads the axis of the normalization.  `none`: numpy raises
as the shapes do not fit.  Simplified: numpy also takes one parameter for all channels, or many for a
layer of one channel; these two cases are left out. -/
def fold (sqrt : K → K) (c : Conv K) (n : BN K) (len : Nat) : Option (Conv K) :=
  if len = c.cout then some (foldBN sqrt c n) else none

/-! ## Specification -/

/-- A normalization along an axis: the parameters are those of the channel when the axis is the last,
those of the coordinate of the position on the axis when it is another (`axis` of Keras's
BatchNormalization). -/
def along (sqrt : K → K) (n : BN K) (axis : Option (P → Nat)) (X : Nat → P → K) (o : Nat) (p : P) : K :=
  let i := (axis.map (fun coord => coord p)).getD o
  (X o p - n.mean i) / sqrt (n.var i + n.eps) * valueOr n.gamma 1 i + valueOr n.beta 0 i

/-- What a normalization multiplies by and adds. -/
def factor (sqrt : K → K) (n : BN K) (i : Nat) : K := valueOr n.gamma 1 i / sqrt (n.var i + n.eps)
def offset (sqrt : K → K) (n : BN K) (i : Nat) : K :=
  valueOr n.beta 0 i - n.mean i * factor sqrt n i

/-! ## Proofs -/

theorem along_eq (sqrt : K → K) (n : BN K) (axis : Option (P → Nat)) (X : Nat → P → K) (o : Nat) (p : P) :
    along sqrt n axis X o p =
      factor sqrt n ((axis.map (fun coord => coord p)).getD o) * X o p
        + offset sqrt n ((axis.map (fun coord => coord p)).getD o) := by
  unfold along offset factor
  dsimp only
  rw [div_eq_mul_inv, div_eq_mul_inv]
  ring

/-- C161, along the channels: the folded layer computes what the two layers computed, for all kinds of
Keras layers. -/
theorem C161_channels {c : Conv K} (hv : c.Valid) (hk : c.kind ≠ .torchTranspose) (sqrt : K → K)
    (n : BN K) : ∃ c', fold sqrt c n c.cout = some c' ∧ ∀ (src : P → Nat → Option P) (X : Nat → P → K)
      (o : Nat) (p : P), o < c.cout →
        c'.out src X o p = along sqrt n none (c.out src X) o p := by
  refine ⟨foldBN sqrt c n, by simp [fold], ?_⟩
  intro src X o p ho
  rw [C32_folded_layer_partial hv (fun h => absurd h hk) sqrt n src X ho p]
  rfl

/-- C161, violated: along another axis the folding fails unless the axis happens to be as long as there
are channels. -/
theorem C161_length_violated (sqrt : K → K) (c : Conv K) (n : BN K) (len : Nat) :
    fold sqrt c n len = none ↔ len ≠ c.cout := by
  simp [fold]

/-- What the layer gives at a place can be any number, if a weight of the channel reads the input. -/
theorem out_onto [DecidableEq P] (c : Conv K) (src : P → Nat → Option P) {o : Nat} (p : P)
    {i t : Nat} (hi : i < c.cin) (ht : t < c.kh * c.kw) {q : P} (hq : src p t = some q)
    (hw : c.weight o i t ≠ 0) (hinj : ∀ t' < c.kh * c.kw, src p t' = some q → t' = t) (v : K) :
    ∃ X : Nat → P → K, c.out src X o p = v := by
  refine ⟨fun j r => if j = i ∧ r = q then (v - valueOr c.bias 0 o) / c.weight o i t else 0, ?_⟩
  unfold Conv.out
  rw [sum_eq_single i, sum_eq_single t]
  · rw [hq]
    simp only [tap, and_self, if_true]
    rw [mul_div_cancel₀ _ hw]
    ring
  · intro t' ht' hne
    cases hs : src p t' with
    | none => simp [tap]
    | some r =>
      have : r ≠ q := by
        rintro rfl
        exact hne (hinj t' (mem_range.mp ht') hs)
      simp [tap, this]
  · intro h
    exact absurd (mem_range.mpr ht) h
  · intro j hj hne
    apply sum_eq_zero
    intro t' _
    cases hs : src p t' with
    | none => simp [tap]
    | some r => simp [tap, hne]
  · intro h
    exact absurd (mem_range.mpr hi) h

/-- C161, violated: when the axis is as long as there are channels, the folding goes through, and the
folded layer uses the parameters of the channel where the model uses those of the coordinate.  At a
place where the layer reads its input they agree for all inputs exactly when the normalization does the
same for the channel and the coordinate. -/
theorem C161_axis_violated [DecidableEq P] {c c' : Conv K} (hv : c.Valid) (hk : c.kind ≠ .torchTranspose)
    (sqrt : K → K) (n : BN K) (coord : P → Nat) (src : P → Nat → Option P) {len : Nat}
    (hf : fold sqrt c n len = some c') {o : Nat} (ho : o < c.cout) (p : P)
    {i t : Nat} (hi : i < c.cin) (ht : t < c.kh * c.kw) {q : P} (hq : src p t = some q)
    (hw : c.weight o i t ≠ 0) (hinj : ∀ t' < c.kh * c.kw, src p t' = some q → t' = t) :
    (∀ X : Nat → P → K, c'.out src X o p = along sqrt n (some coord) (c.out src X) o p) ↔
      factor sqrt n o = factor sqrt n (coord p) ∧ offset sqrt n o = offset sqrt n (coord p) := by
  have hl : len = c.cout := by
    by_contra h
    rw [(C161_length_violated sqrt c n len).mpr h] at hf
    simp at hf
  subst hl
  obtain ⟨d, hd, hout⟩ := C161_channels (P := P) hv hk sqrt n
  rw [hf] at hd
  injection hd with hd
  subst hd
  have key : ∀ X : Nat → P → K, c'.out src X o p = along sqrt n (some coord) (c.out src X) o p ↔
      factor sqrt n o * c.out src X o p + offset sqrt n o =
        factor sqrt n (coord p) * c.out src X o p + offset sqrt n (coord p) := by
    intro X
    rw [hout src X o p ho, along_eq, along_eq]
    rfl
  constructor
  · intro h
    obtain ⟨X0, h0⟩ := out_onto c src p hi ht hq hw hinj 0
    obtain ⟨X1, h1⟩ := out_onto c src p hi ht hq hw hinj 1
    have e0 := (key X0).mp (h X0)
    have e1 := (key X1).mp (h X1)
    rw [h0] at e0
    rw [h1] at e1
    have hoff : offset sqrt n o = offset sqrt n (coord p) := by simpa using e0
    refine ⟨?_, hoff⟩
    rw [hoff] at e1
    simpa using e1
  · rintro ⟨h1, h2⟩ X
    rw [key X, h1, h2]

/-! ### The hypotheses are met -/

/-- A layer with a kernel of one element and two channels, normalized along the rows of an image of two
rows: the second row is normalized by 3, the second channel of the folded layer is. -/
def cEx : Conv ℚ := ⟨.kerasConv, 1, 2, 1, 1, 1, fun _ => 1, none⟩
def nEx : BN ℚ := ⟨some (fun i => if i = 0 then 1 else 3), none, fun _ => 0, fun _ => 1, 0⟩

example : cEx.Valid ∧ cEx.weight 1 0 0 ≠ 0 ∧
    (fold id cEx nEx 2).map (fun c' => c'.out (fun p _ => some p) (fun _ _ => 5) 1 (0 : Nat)) = some 15 ∧
    along id nEx (some id) (cEx.out (fun p _ => some p) (fun _ _ => 5)) 1 0 = 5 := by
  refine ⟨⟨?_, ?_, ?_, ?_, ?_, ?_, ?_⟩, ?_, ?_, ?_⟩ <;> decide +kernel

example : fold id cEx nEx 7 = none := rfl

end MCT.NormAxis
