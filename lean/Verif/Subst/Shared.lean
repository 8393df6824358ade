/-
Corrections of a layer that is called several times: every call has its own node, with its own
weights and its own statistics, but one layer is built, from the node of the first call.

Sources (all under /repo/model_compression_toolkit/core):
  keras/back2framework/instance_builder.py 49-72, 99-125   one layer for all calls
  pytorch/back2framework/pytorch_model_builder.py 299-328   the same
  common/statistics_correction/apply_bias_correction_to_graph.py 25-82
  common/statistics_correction/apply_activation_bias_correction_to_graph.py 22-81
  common/substitutions/scale_equalization.py 101-135, 222-246
-/
import Verif.Subst.CorrectionProps
import Verif.Subst.EqualizeProps
import Mathlib.Algebra.CharZero.Defs

namespace MCT.Shared
open MCT.Subst MCT.SubstSpec Finset

set_option linter.unusedSectionVars false
set_option linter.unusedVariables false

/-! ## Model -/

section Model
variable {K : Type*} [Field K]

/-- The layer all calls run: the one built from the node of the first call.
keras/back2framework/instance_builder.py 63-72, 119-123, pytorch_model_builder.py 311-328. -/
def built (calls : List (Conv K)) : Option (Conv K) := calls.head?

/-- Bias correction of the nodes of the calls, each with the means of its own inputs, all with the one
quantized kernel.  apply_bias_correction_to_graph.py 43-54: there is no test for reuse. -/
def biasCalls (c : Conv K) (qk : Nat → K) (mus : List (Nat → K)) : Option (List (Conv K)) :=
  mus.mapM (fun mu => biasCorrected c qk mu)

/-- Activation bias correction of the nodes of the calls, each with the difference of the means of its
own inputs.  apply_activation_bias_correction_to_graph.py 38-47: there is no test for reuse. -/
def activationCalls (c : Conv K) (diffs : List K) : Option (List (Conv K)) :=
  diffs.mapM (fun d => activationCorrected c d)

/-- Scale equalization before a layer that is called several times: each call follows an activation
after its own first layer, with its own scale, or is in no match (`none`).
scale_equalization.py 222-246: there is no test for reuse. -/
def equalizeCall (c2 : Conv K) (call : Conv K × Option (Nat → K)) : Option (Conv K × Conv K) :=
  match call.2 with
  | some s => updateLinear call.1 c2 s
  | none => some (call.1, c2)

def equalizeCalls (c2 : Conv K) (calls : List (Conv K × Option (Nat → K))) :
    Option (List (Conv K × Conv K)) :=
  calls.mapM (equalizeCall c2)

end Model

/-! ## Proofs -/

section Mapped
variable {α β : Type*}

theorem mapM_head {f : α → Option β} {a : α} {as : List α} {bs : List β}
    (h : (a :: as).mapM f = some bs) : ∃ b, bs.head? = some b ∧ f a = some b := by
  rw [List.mapM_cons] at h
  obtain ⟨b, hb, h⟩ := Option.bind_eq_some_iff.mp h
  obtain ⟨bs', hbs, h⟩ := Option.bind_eq_some_iff.mp h
  injection h with h
  exact ⟨b, by rw [← h]; rfl, hb⟩

theorem mapM_get {f : α → Option β} : ∀ {as : List α} {bs : List β}, as.mapM f = some bs →
    ∀ {j : Nat} {a : α}, as[j]? = some a → ∃ b, bs[j]? = some b ∧ f a = some b
  | [], bs, _, j, a, hj => by simp at hj
  | x :: as, bs, h, j, a, hj => by
    rw [List.mapM_cons] at h
    obtain ⟨b, hb, h⟩ := Option.bind_eq_some_iff.mp h
    obtain ⟨bs', hbs, h⟩ := Option.bind_eq_some_iff.mp h
    injection h with h
    subst h
    cases j with
    | zero =>
      simp only [List.getElem?_cons_zero, Option.some.injEq] at hj
      subst hj
      exact ⟨b, rfl, hb⟩
    | succ j =>
      rw [List.getElem?_cons_succ] at hj
      obtain ⟨b', h1, h2⟩ := mapM_get hbs hj
      exact ⟨b', by rw [List.getElem?_cons_succ]; exact h1, h2⟩

end Mapped

section Bias
variable {K P : Type*} [Field K]

/-- The sum over the inputs of the error of the quantized kernel times a value per input channel. -/
def errorTimes (c : Conv K) (qk : Nat → K) (o : Nat) (mu : Nat → K) : K :=
  ∑ i ∈ range c.cin, ∑ t ∈ range (c.kh * c.kw),
    (({ c with kernel := qk } : Conv K).weight o i t - c.weight o i t) * mu i

theorem corrected_off {c c₀ : Conv K} (hv : c.Valid) (hu : c.kind = .torchTranspose → c.groups = 1)
    {qk mu₀ : Nat → K} (h : biasCorrected c qk mu₀ = some c₀) (mu : Nat → K) (m : Nat)
    (X : Nat → Nat → P → K) (src : P → Nat → Option P) (p : P)
    (hX : ∀ i < c.cin, ∀ t < c.kh * c.kw, ∑ j ∈ range m, tap (X j) i (src p t) = m * mu i)
    {o : Nat} (ho : o < c.cout) :
    ∑ j ∈ range m, c₀.out src (X j) o p = ∑ j ∈ range m, c.out src (X j) o p +
      m * errorTimes c qk o (fun i => mu i - mu₀ i) := by
  obtain ⟨h1, h2⟩ := correctionTerm_spec hv hu qk mu₀
  obtain ⟨b, hb, hb'⟩ := subtractTerm_spec (bias := c.bias) h1
  have hc : c₀ = { c with kernel := qk, bias := some b } := by
    rw [biasCorrected, hb] at h
    simpa using h.symm
  subst hc
  have key : ∀ w : Nat → Nat → K, ∑ j ∈ range m, ∑ i ∈ range c.cin, ∑ t ∈ range (c.kh * c.kw),
      w i t * tap (X j) i (src p t) = m * ∑ i ∈ range c.cin, ∑ t ∈ range (c.kh * c.kw), w i t * mu i := by
    intro w
    rw [sum_comm, mul_sum]
    apply sum_congr rfl
    intro i hi
    rw [sum_comm, mul_sum]
    apply sum_congr rfl
    intro t ht
    rw [← mul_sum, hX i (mem_range.1 hi) t (mem_range.1 ht)]
    ring
  simp only [Conv.out, sum_add_distrib, sum_const, card_range, nsmul_eq_mul]
  rw [key, key]
  have : valueOr (some b) 0 o = valueOr c.bias 0 o - (correctionTerm c qk mu₀).2 o := hb' o
  rw [this, h2 o ho]
  have hw : ∀ i t, ({ c with
      kernel := qk
      bias := some b } : Conv K).weight o i t = ({ c with kernel := qk } : Conv K).weight o i t :=
    fun i t => rfl
  simp only [hw]
  have e : errorTimes c qk o (fun i => mu i - mu₀ i) =
      (∑ i ∈ range c.cin, ∑ t ∈ range (c.kh * c.kw), ({ c with kernel := qk } : Conv K).weight o i t * mu i) -
        (∑ i ∈ range c.cin, ∑ t ∈ range (c.kh * c.kw), c.weight o i t * mu i) -
      ∑ i ∈ range c.cin, ∑ t ∈ range (c.kh * c.kw),
        (({ c with kernel := qk } : Conv K).weight o i t - c.weight o i t) * mu₀ i := by
    unfold errorTimes
    rw [← sum_sub_distrib, ← sum_sub_distrib]
    apply sum_congr rfl
    intro i _
    rw [← sum_sub_distrib, ← sum_sub_distrib]
    exact sum_congr rfl (fun t _ => by ring)
  rw [e]
  ring

/-- C157 (bias correction): the first call of a layer is unbiased, as a layer with one call is (C75). -/
theorem C157_bias_first_partial {c : Conv K} (hv : c.Valid)
    (hu : c.kind = .torchTranspose → c.groups = 1) {qk mu : Nat → K} {mus : List (Nat → K)}
    {cs : List (Conv K)} {c₀ : Conv K} (h : biasCalls c qk (mu :: mus) = some cs)
    (hb : built cs = some c₀) (m : Nat) (X : Nat → Nat → P → K) (src : P → Nat → Option P) (p : P)
    (hX : ∀ i < c.cin, ∀ t < c.kh * c.kw, ∑ j ∈ range m, tap (X j) i (src p t) = m * mu i)
    {o : Nat} (ho : o < c.cout) :
    ∑ j ∈ range m, c₀.out src (X j) o p = ∑ j ∈ range m, c.out src (X j) o p := by
  obtain ⟨c', h1, h2⟩ := mapM_head h
  have : c' = c₀ := by
    unfold built at hb
    rw [hb] at h1
    injection h1 with h1
    exact h1.symm
  subst this
  rw [corrected_off hv hu h2 mu m X src p hX ho]
  simp [errorTimes]

/-- C157 (bias correction), violated: any other call runs with the correction of the first one.  Its
average output is off by the error of the kernel times the difference of the means of the two inputs,
and it is unbiased exactly when this vanishes. -/
theorem C157_bias_violated [CharZero K] {c : Conv K} (hv : c.Valid)
    (hu : c.kind = .torchTranspose → c.groups = 1) {qk mu₀ mu : Nat → K} {mus : List (Nat → K)}
    (hmem : mu ∈ mu₀ :: mus) {cs : List (Conv K)} {c₀ : Conv K}
    (h : biasCalls c qk (mu₀ :: mus) = some cs) (hb : built cs = some c₀) {m : Nat} (hm : 0 < m)
    (X : Nat → Nat → P → K) (src : P → Nat → Option P) (p : P)
    (hX : ∀ i < c.cin, ∀ t < c.kh * c.kw, ∑ j ∈ range m, tap (X j) i (src p t) = m * mu i)
    {o : Nat} (ho : o < c.cout) :
    ∑ j ∈ range m, c₀.out src (X j) o p = ∑ j ∈ range m, c.out src (X j) o p +
        m * errorTimes c qk o (fun i => mu i - mu₀ i) ∧
      (∑ j ∈ range m, c₀.out src (X j) o p = ∑ j ∈ range m, c.out src (X j) o p ↔
        errorTimes c qk o (fun i => mu i - mu₀ i) = 0) := by
  obtain ⟨c', h1, h2⟩ := mapM_head h
  have : c' = c₀ := by
    unfold built at hb
    rw [hb] at h1
    injection h1 with h1
    exact h1.symm
  subst this
  have hoff := corrected_off hv hu h2 mu m X src p hX ho
  refine ⟨hoff, ?_⟩
  rw [hoff]
  constructor
  · intro h
    have h0 : (m : K) * errorTimes c qk o (fun i => mu i - mu₀ i) = 0 := by
      have := h
      rwa [add_eq_left] at this
    rcases mul_eq_zero.mp h0 with h0 | h0
    · exact absurd (Nat.cast_eq_zero.mp h0) (by omega)
    · exact h0
  · intro h; rw [h, mul_zero, add_zero]

/-- C157 (activation bias correction), violated: a call whose activations move by `diff` runs with the
correction for those of the first call, which move by `diff₀`: its average output moves by the
difference times the sum of the kernel. -/
theorem C157_activation_violated {c : Conv K} (hv : c.Valid)
    (hu : c.kind = .torchTranspose → c.groups = 1) (hk : c.kh = 1 ∧ c.kw = 1) {diff₀ diff : K}
    {diffs : List K} (hmem : diff ∈ diff₀ :: diffs) {cs : List (Conv K)} {c₀ : Conv K}
    (h : activationCalls c (diff₀ :: diffs) = some cs) (hb : built cs = some c₀) (m : Nat)
    (X Y : Nat → Nat → P → K) (src : P → Nat → Option P) (p : P)
    (hX : ∀ i < c.cin,
      ∑ j ∈ range m, tap (Y j) i (src p 0) = ∑ j ∈ range m, tap (X j) i (src p 0) + m * diff)
    {o : Nat} (ho : o < c.cout) :
    ∑ j ∈ range m, c₀.out src (Y j) o p = ∑ j ∈ range m, c.out src (X j) o p +
      m * ((diff - diff₀) * ∑ i ∈ range c.cin, c.weight o i 0) := by
  obtain ⟨c', h1, h2⟩ := mapM_head h
  have : c' = c₀ := by
    unfold built at hb
    rw [hb] at h1
    injection h1 with h1
    exact h1.symm
  subst this
  obtain ⟨s1, s2⟩ := outputSums_spec hv hu
  obtain ⟨b, hb2, hb'⟩ := subtractTerm_spec (bias := c.bias)
    (term := ((outputSums c).1, fun o => diff₀ * (outputSums c).2 o)) s1
  have hc : c' = { c with bias := some b } := by
    simp only [activationCorrected, if_pos hk, hb2, Option.map_some, Option.some.injEq] at h2
    exact h2.symm
  subst hc
  simp only [Conv.out, sum_add_distrib, sum_const, card_range, nsmul_eq_mul]
  have hw : ∀ i t, ({ c with bias := some b } : Conv K).weight o i t = c.weight o i t := fun i t => rfl
  have : valueOr (some b) 0 o = valueOr c.bias 0 o - diff₀ * (outputSums c).2 o := hb' o
  rw [this, s2 o ho]
  simp only [hw]
  simp only [hk.1, hk.2, Nat.mul_one, sum_range_one]
  have key : ∑ j ∈ range m, ∑ i ∈ range c.cin, c.weight o i 0 * tap (Y j) i (src p 0) =
      ∑ j ∈ range m, ∑ i ∈ range c.cin, c.weight o i 0 * tap (X j) i (src p 0) +
        m * (diff * ∑ i ∈ range c.cin, c.weight o i 0) := by
    conv_lhs => rw [sum_comm]
    conv_rhs => rw [sum_comm]
    rw [mul_sum, mul_sum, ← sum_add_distrib]
    apply sum_congr rfl
    intro i hi
    rw [← mul_sum, ← mul_sum, hX i (mem_range.1 hi)]
    ring
  rw [key]
  ring

end Bias

section Equalize
variable {K P : Type*} [Field K] [LinearOrder K] [IsStrictOrderedRing K]

/-- The factor a call scales a channel by, 1 when it is in no match. -/
def factor : Option (Nat → K) → Nat → K
  | some s => s
  | none => fun _ => 1

theorem out_weights {c c' : Conv K} (r : Nat → K)
    (hsame : c'.cin = c.cin ∧ c'.kh = c.kh ∧ c'.kw = c.kw ∧ c'.bias = c.bias) {o : Nat}
    (hw : ∀ i t, i < c.cin → t < c.kh * c.kw → c'.weight o i t = c.weight o i t / r i)
    (src : P → Nat → Option P) (X : Nat → P → K) (p : P) :
    c'.out src X o p = c.out src (fun i q => X i q / r i) o p := by
  obtain ⟨h1, h2, h3, h4⟩ := hsame
  simp only [Conv.out, h1, h2, h3, h4]
  congr 1
  apply sum_congr rfl
  intro i hi
  apply sum_congr rfl
  intro t ht
  rw [hw i t (mem_range.1 hi) (mem_range.1 ht)]
  cases src p t with
  | none => simp [tap]
  | some q => simp only [tap]; ring

/-- C157 (scale equalization), violated: a call after a first layer scaled by `s` runs the layer
divided by the scale of the first call.  It computes the original layer on an input whose channels are
multiplied by the quotient of the two scales. -/
theorem C157_equalized_violated {c2 : Conv K} (hv2 : c2.Valid)
    {calls : List (Conv K × Option (Nat → K))}
    (hv : ∀ e ∈ calls, e.1.Valid ∧ c2.cin = e.1.cout ∧ ∀ i, 0 < factor e.2 i)
    {cs : List (Conv K × Conv K)} (h : equalizeCalls c2 calls = some cs)
    {first : Conv K × Option (Nat → K)} (hf0 : calls[0]? = some first) {c₀ : Conv K}
    (hb : built (cs.map Prod.snd) = some c₀) {j : Nat} {call : Conv K × Option (Nat → K)}
    (hj : calls[j]? = some call) {f : (Nat → P → K) → Nat → P → K} (hf : Homogeneous f)
    (src1 src2 : P → Nat → Option P) (X : Nat → P → K) {o : Nat} (ho : o < c2.cout) (p : P) :
    ∃ c1', (cs.map Prod.fst)[j]? = some c1' ∧
      c₀.out src2 (f (channels call.1.cout (c1'.out src1 X))) o p =
        c2.out src2 (fun i q => f (channels call.1.cout (call.1.out src1 X)) i q *
          (factor call.2 i / factor first.2 i)) o p := by
  obtain ⟨r0, hr0, he0⟩ := mapM_get h hf0
  obtain ⟨rj, hrj, hej⟩ := mapM_get h hj
  have hmem0 : first ∈ calls := List.mem_of_getElem? hf0
  have hmemj : call ∈ calls := List.mem_of_getElem? hj
  obtain ⟨v0, cc0, p0⟩ := hv first hmem0
  obtain ⟨vj, ccj, pj⟩ := hv call hmemj
  refine ⟨rj.1, by simp [hrj], ?_⟩
  have hc0 : c₀ = r0.2 := by
    unfold built at hb
    rw [List.head?_eq_getElem?, List.getElem?_map, hr0] at hb
    simpa using hb.symm
  subst hc0
  -- the second layer of the first call
  have hsecond : ∀ Y : Nat → P → K, r0.2.out src2 Y o p
      = c2.out src2 (fun i q => Y i q / factor first.2 i) o p := by
    intro Y
    obtain ⟨c1, s⟩ := first
    cases s with
    | none =>
      simp only [equalizeCall, Option.some.injEq] at he0
      rw [← he0]
      simp [factor]
    | some s =>
      simp only [equalizeCall] at he0
      obtain ⟨a, b⟩ := r0
      obtain ⟨_, _, _, k4, k5⟩ := updateLinear_spec v0 hv2 cc0 he0
      exact out_weights s k4 (fun i t hi ht => k5 o i t ho hi ht) src2 Y p
  -- the first layer of the call
  have hfirst : channels call.1.cout (rj.1.out src1 X)
      = fun i q => channels call.1.cout (call.1.out src1 X) i q * factor call.2 i := by
    obtain ⟨c1, s⟩ := call
    cases s with
    | none =>
      simp only [equalizeCall, Option.some.injEq] at hej
      rw [← hej]
      simp [factor]
    | some s =>
      simp only [equalizeCall] at hej
      obtain ⟨a, b⟩ := rj
      obtain ⟨k1, k2, k3, _, _⟩ := updateLinear_spec vj hv2 ccj hej
      funext i q
      simp only [channels]
      by_cases hi : i < c1.cout
      · simp only [hi, if_true]
        exact first_out s k1 (fun j t hj ht => k2 i j t hi hj ht) (k3 i) src1 X q
      · simp [hi]
  rw [hsecond, hfirst, hf _ pj]
  congr 1
  funext i q
  ring

/-- C157 (scale equalization): calls with the same scale as the first one, so a layer with one call,
compute what they did. -/
theorem C157_equalized_partial {c2 : Conv K} (hv2 : c2.Valid)
    {calls : List (Conv K × Option (Nat → K))}
    (hv : ∀ e ∈ calls, e.1.Valid ∧ c2.cin = e.1.cout ∧ ∀ i, 0 < factor e.2 i)
    {cs : List (Conv K × Conv K)} (h : equalizeCalls c2 calls = some cs)
    {first : Conv K × Option (Nat → K)} (hf0 : calls[0]? = some first) {c₀ : Conv K}
    (hb : built (cs.map Prod.snd) = some c₀) {j : Nat} {call : Conv K × Option (Nat → K)}
    (hj : calls[j]? = some call) (hsame : factor call.2 = factor first.2)
    {f : (Nat → P → K) → Nat → P → K} (hf : Homogeneous f)
    (src1 src2 : P → Nat → Option P) (X : Nat → P → K) {o : Nat} (ho : o < c2.cout) (p : P) :
    ∃ c1', (cs.map Prod.fst)[j]? = some c1' ∧
      c₀.out src2 (f (channels call.1.cout (c1'.out src1 X))) o p =
        c2.out src2 (f (channels call.1.cout (call.1.out src1 X))) o p := by
  obtain ⟨c1', h1, h2⟩ := C157_equalized_violated hv2 hv h hf0 hb hj hf src1 src2 X ho p
  refine ⟨c1', h1, ?_⟩
  rw [h2, hsame]
  congr 1
  funext i q
  have hp := (hv first (List.mem_of_getElem? hf0)).2.2 i
  rw [div_self hp.ne', mul_one]

end Equalize

/-! ### The hypotheses are met -/

/-- One weight of 1, quantized to 2, called on inputs with the means 1 and 3: the second call is off
by 2. -/
def one : Conv ℚ := ⟨.kerasConv, 1, 1, 1, 1, 1, fun _ => 1, some (fun _ => 0)⟩

example : one.Valid ∧
    ((biasCalls one (fun _ => 2) [fun _ => 1, fun _ => 3]).bind built).map
      (fun c => (c.out (fun (q : Unit) _ => some q) (fun _ _ => 1) 0 (),
        c.out (fun (q : Unit) _ => some q) (fun _ _ => 3) 0 ())) = some (1, 5) := by
  refine ⟨⟨?_, ?_, ?_, ?_, ?_, ?_, ?_⟩, ?_⟩ <;> decide +kernel

/-- Two calls with the scales 1/2 and 1/4 on the input 8: the second one gives half of it. -/
example : ((equalizeCalls one [(one, some (fun _ => 1 / 2)), (one, some (fun _ => 1 / 4))]).map
    (fun cs => ((cs.map Prod.snd).head?.map (fun c => (cs.map Prod.fst).map (fun c1 =>
      c.out (fun (q : Unit) _ => some q) (fun i q => c1.out (fun (q : Unit) _ => some q)
        (fun _ _ => 8) i q) 0 ()))))) = some (some [8, 4]) := by decide +kernel

/-- Two calls whose activations move by 1 and by 3. -/
example : ((activationCalls one [1, 3]).bind built).map
    (fun c => (c.out (fun (q : Unit) _ => some q) (fun _ _ => 1) 0 (),
      c.out (fun (q : Unit) _ => some q) (fun _ _ => 3) 0 ())) = some (0, 2) := by decide +kernel

end MCT.Shared
