/-
C121: scores are unbiased estimates of the squared derivatives of the outputs.
-/
import Verif.Hutch.Model
import Mathlib.Tactic.Ring
import Mathlib.Tactic.FieldSimp
import Mathlib.Tactic.Linarith
import Mathlib.Data.Fintype.BigOperators
import Mathlib.Algebra.BigOperators.Fin
import Mathlib.Algebra.BigOperators.Ring.Finset
import Mathlib.Algebra.BigOperators.Field
import Mathlib.Algebra.BigOperators.Pi
import Mathlib.Algebra.Order.BigOperators.Ring.Finset
import Mathlib.Algebra.Order.Field.Rat

namespace MCT.Hutch

/-! ### Specification -/

section
variable {R : Type} [Field R]

/-- The mean of a quantity over all random vectors (the vectors are uniform). -/
def expect {V : Type} [Fintype V] (f : V → R) : R := (∑ v, f v) / ((Fintype.card V : ℕ) : R)

/-- The squared derivatives of all outputs by one element: what the scores estimate. -/
def squares {K E : Type} [Fintype K] (J : K → E → R) (e : E) : R := ∑ k, J k e ^ 2

end

/-! ### Expectation -/

section
variable {R : Type} [Field R] [LinearOrder R] [IsStrictOrderedRing R]
variable {K E C : Type} [Fintype K] [DecidableEq K] [Fintype E] [DecidableEq C]

theorem expect_sum {V ι : Type} [Fintype V] (s : Finset ι) (f : ι → V → R) :
    expect (fun v => ∑ i ∈ s, f i v) = ∑ i ∈ s, expect (f i) := by
  unfold expect
  rw [Finset.sum_comm, Finset.sum_div]

theorem expect_div {V : Type} [Fintype V] (f : V → R) (c : R) : expect (fun v => f v / c) = expect f / c := by
  unfold expect
  rw [← Finset.sum_div, div_right_comm]

theorem expect_mul {V : Type} [Fintype V] (f : V → R) (c : R) : expect (fun v => f v * c) = expect f * c := by
  unfold expect
  rw [← Finset.sum_mul]
  ring

theorem expect_const {V : Type} [Fintype V] [Nonempty V] (c : R) : expect (fun _ : V => c) = c := by
  unfold expect
  rw [Finset.sum_const, Finset.card_univ, nsmul_eq_mul]
  have : ((Fintype.card V : ℕ) : R) ≠ 0 := Nat.cast_ne_zero.mpr Fintype.card_ne_zero
  field_simp

theorem sgn_sq (b : Bool) : (sgn b : R) * sgn b = 1 := by cases b <;> simp [sgn]

/-- Flipping one sign. -/
def flip (k : K) (v : K → Bool) : K → Bool := Function.update v k (!v k)

theorem flip_flip (k : K) (v : K → Bool) : flip k (flip k v) = v := by
  unfold flip
  simp

theorem expect_signs (k l : K) :
    expect (fun v : K → Bool => (sgn (v k) * sgn (v l) : R)) = if k = l then 1 else 0 := by
  by_cases h : k = l
  · subst h
    rw [if_pos rfl]
    simp only [sgn_sq]
    exact expect_const 1
  · rw [if_neg h]
    have hs : ∑ v : K → Bool, (sgn (v k) * sgn (v l) : R) = 0 := by
      apply Finset.sum_involution (fun v _ => flip k v)
      · intro v _
        have h1 : flip k v k = !v k := by simp [flip]
        have h2 : flip k v l = v l := by
          unfold flip; rw [Function.update_of_ne (Ne.symm h)]
        rw [h1, h2]
        cases v k <;> cases v l <;> simp [sgn]
      · intro v _ _ e
        have := congrFun e k
        simp [flip] at this
      · intro v _; exact Finset.mem_univ _
      · intro v _; exact flip_flip k v
    unfold expect
    rw [hs, zero_div]

theorem expect_element (rows : R) (J : K → E → R) (e : E) :
    expect (fun v => grad rows J v e ^ 2) = squares J e / rows ^ 2 := by
  have h1 : (fun v : K → Bool => grad rows J v e ^ 2) =
      fun v => (∑ k, ∑ l, sgn (v k) * sgn (v l) * (J k e * J l e)) / rows ^ 2 := by
    funext v
    unfold grad
    rw [div_pow, sq, Finset.sum_mul_sum]
    congr 1
    refine Finset.sum_congr rfl fun k _ => Finset.sum_congr rfl fun l _ => ?_
    ring
  rw [h1, expect_div]
  congr 1
  rw [expect_sum]
  unfold squares
  refine Finset.sum_congr rfl fun k _ => ?_
  rw [expect_sum]
  have : ∀ l, expect (fun v : K → Bool => sgn (v k) * sgn (v l) * (J k e * J l e)) =
      if k = l then J k e ^ 2 else 0 := by
    intro l
    rw [expect_mul, expect_signs]
    split
    next h => subst h; ring
    · ring
  simp only [this]
  simp

/-- **C121** (one random vector).  For every network (any number of outputs and of elements) the mean over all
random vectors of a score is the sum of the squared derivatives of all outputs by the element, by all elements of
the channel or by all elements of the tensor, divided by `rows²`, with `rows = 1` where the outputs are summed. -/
theorem C121_unbiased (rows : R) (J : K → E → R) (chan : E → C) :
    (∀ e, expect (fun v => elementScore (grad rows J v) e) = squares J e / rows ^ 2) ∧
    (∀ c, expect (fun v => channelScore chan (grad rows J v) c) = (∑ e with chan e = c, squares J e) / rows ^ 2) ∧
    expect (fun v => tensorScore (grad rows J v)) = (∑ e, squares J e) / rows ^ 2 := by
  refine ⟨fun e => expect_element rows J e, fun c => ?_, ?_⟩
  · unfold channelScore
    rw [expect_sum, Finset.sum_div]
    exact Finset.sum_congr rfl fun e _ => expect_element rows J e
  · unfold tensorScore
    rw [expect_sum, Finset.sum_div]
    exact Finset.sum_congr rfl fun e _ => expect_element rows J e

example : expect (fun v : Fin 2 → Bool => elementScore (grad (1 : ℚ) (fun k (_ : Fin 1) => if k = 0 then 3 else 4) v) 0) =
    25 := by
  rw [(C121_unbiased 1 _ (fun e : Fin 1 => e)).1]
  simp [squares, Fin.sum_univ_two]; norm_num

/-- **C121** (images).  For a network that treats the images of a batch separately, the score of an element of the
activation of image `b` has the squared derivatives of the outputs of image `b` alone as mean, whatever the other
images are. -/
theorem C121_per_image {B : Type} [Fintype B] [DecidableEq B] (J : B → K → E → R) (b : B) (e : E) :
    expect (fun v : B × K → Bool =>
      elementScore (grad 1 (fun (k : B × K) (x : B × E) => if k.1 = x.1 then J k.1 k.2 x.2 else 0) v) (b, e)) =
      ∑ k, J b k e ^ 2 := by
  rw [(C121_unbiased (1 : R) _ (fun x : B × E => x.1)).1]
  unfold squares
  rw [Fintype.sum_prod_type]
  rw [Finset.sum_eq_single b]
  · simp
  · intro b' _ hb
    apply Finset.sum_eq_zero
    intro k _
    simp [hb]
  · simp

/-- **C121** (sign).  Scores are never negative, and the score of an element is zero for every random vector
exactly if no output depends on it. -/
theorem C121_zero (J : K → E → R) (rows : R) (hr : rows ≠ 0) (e : E) :
    (∀ v, 0 ≤ elementScore (grad rows J v) e) ∧
    ((∀ v, elementScore (grad rows J v) e = 0) ↔ ∀ k, J k e = 0) := by
  refine ⟨fun v => sq_nonneg _, fun h => ?_, fun h v => ?_⟩
  · have hs : squares J e / rows ^ 2 = 0 := by
      rw [← expect_element]
      unfold elementScore at h
      unfold expect
      rw [Finset.sum_eq_zero (fun v _ => h v), zero_div]
    have h0 : squares J e = 0 := by
      rcases div_eq_zero_iff.mp hs with h1 | h1
      · exact h1
      · exact absurd h1 (pow_ne_zero 2 hr)
    intro k
    unfold squares at h0
    have := (Finset.sum_eq_zero_iff_of_nonneg (fun k _ => sq_nonneg (J k e))).mp h0 k (Finset.mem_univ k)
    exact pow_eq_zero_iff (two_ne_zero) |>.mp this
  · unfold elementScore grad
    simp [h]

/-- **C121** (violation).  Per-channel scores of activations are means over the channel in PyTorch and sums in Keras:
they differ by the number of elements of the channel, for every network and random vector. -/
theorem C121_channel_violated (J : K → E → R) (v : K → Bool) (chan : E → C) (c : C)
    (h : (Finset.univ.filter fun e => chan e = c).Nonempty) :
    channelScore chan (grad 1 J v) c =
      (((Finset.univ.filter fun e => chan e = c).card : ℕ) : R) * channelMean chan (grad 1 J v) c := by
  unfold channelScore channelMean
  have : (((Finset.univ.filter fun e => chan e = c).card : ℕ) : R) ≠ 0 :=
    Nat.cast_ne_zero.mpr (Finset.card_pos.mpr h).ne'
  field_simp

end

/-! ### The rows of the outputs -/

/-- The number of rows after concatenation is the length of the second axis for a network with one output tensor,
and the size of the batch for a network with several. -/
theorem catRows_spec (b n : ℕ) (rest : List ℕ) (hb : 0 < b) (shapes : List (List ℕ)) (hs : shapes ≠ []) :
    catRows (.single (b :: n :: rest)) = some n ∧ catRows (.many (shapes.map fun s => b :: s)) = some b := by
  constructor
  · obtain ⟨b, rfl⟩ : ∃ k, b = k + 1 := ⟨b - 1, by omega⟩
    unfold catRows unfold
    rw [Option.bind_some]
    have : (List.replicate (b + 1) (n :: rest)).mapM List.head? = some (List.replicate (b + 1) n) := by
      clear hb
      induction b with
      | zero => rfl
      | succ b ih => rw [List.replicate_succ, List.mapM_cons, ih]; rfl
    rw [this, Option.bind_some, List.replicate_succ]
    dsimp only
    rw [if_pos]
    simp
  · unfold catRows unfold
    rw [Option.bind_some]
    have : (shapes.map fun s => b :: s).mapM List.head? = some (shapes.map fun _ => b) := by
      clear hs
      induction shapes with
      | nil => rfl
      | cons s t ih => rw [List.map_cons, List.mapM_cons, ih]; rfl
    rw [this, Option.bind_some]
    cases shapes with
    | nil => exact absurd rfl hs
    | cons s t =>
        rw [List.map_cons]
        dsimp only
        rw [if_pos]
        simp

/-- **C121** (violation).  In the weights calculator of PyTorch the sum of the outputs is divided by the number of
rows after concatenation: the scores of all weights of a network with one output of `n` classes estimate the
squared derivatives divided by `n²`; for the same derivatives in a network with two outputs and one image, the
squared derivatives. -/
theorem C121_torch_scale_violated {R : Type} [Field R] [LinearOrder R] [IsStrictOrderedRing R] {K E : Type}
    [Fintype K] [DecidableEq K] [Fintype E] (n : ℕ) (J : K → E → R) (e : E) :
    (∃ r, catRows (.single [1, n]) = some r ∧
      expect (fun v => elementScore (grad (r : R) J v) e) = squares J e / (n : R) ^ 2) ∧
    ∃ r, catRows (.many [[1, n], [1, n]]) = some r ∧
      expect (fun v => elementScore (grad (r : R) J v) e) = squares J e := by
  refine ⟨⟨n, (catRows_spec 1 n [] one_pos [[]] (by simp)).1, expect_element (n : R) J e⟩,
    1, (catRows_spec 1 0 [] one_pos [[n], [n]] (by simp)).2, ?_⟩
  have := expect_element ((1 : ℕ) : R) J e
  rw [Nat.cast_one, one_pow, div_one] at this
  rw [Nat.cast_one]
  exact this

/-- **C121** (violation).  Networks that return one number per image have no weights scores. -/
theorem C121_scalar_output_violated (b : ℕ) : catRows (.single [b]) = none := by
  unfold catRows unfold
  rw [Option.bind_some]
  cases b with
  | zero => rfl
  | succ b => rfl

/-- **C121** (violation).  The weights calculator of PyTorch passes the list of inputs as one argument: it works for
one input, and fails for networks with several. -/
theorem C121_torch_inputs_violated {X : Type} (images : List X) (inputs : ℕ) :
    (weightsInputsTorch images inputs ≠ none ↔ inputs ≤ 1) ∧ (weightsInputsTorch images 1 = some [images]) := by
  refine ⟨?_, rfl⟩
  match inputs with
  | 0 => simp [weightsInputsTorch]
  | 1 => simp [weightsInputsTorch]
  | n + 2 =>
      have : weightsInputsTorch images (n + 2) = none := by
        unfold weightsInputsTorch
        rw [show n + 2 = 2 + n by omega, List.range_add, List.mapM_append]
        rfl
      simp [this]

/-! ### The loop -/

section
variable {R : Type} [Field R] [LinearOrder R] [IsStrictOrderedRing R]

/-- The mean of the first `j` approximations. -/
def meanOf (approx : ℕ → Scores R) (j : ℕ) (n i : ℕ) : R := (∑ t ∈ Finset.range j, approx t n i) / (j : R)

theorem update_mean (approx : ℕ → Scores R) (j : ℕ) :
    update j (meanOf approx j) (approx j) = meanOf approx (j + 1) := by
  funext n i
  unfold update meanOf
  rw [Finset.sum_range_succ]
  have h1 : ((j : R) + 1) ≠ 0 := by positivity
  rcases Nat.eq_zero_or_pos j with rfl | hj
  · simp
  · have h2 : (j : R) ≠ 0 := Nat.cast_ne_zero.mpr hj.ne'
    push_cast
    field_simp

theorem loop_spec (nodes : ℕ) (size : ℕ → ℕ) (early : Bool) (approx : ℕ → Scores R) : ∀ (left j : ℕ)
    (prev : Option (ℕ → R)), (∀ p, prev = some p → 0 < j ∧ p = means size (meanOf approx j)) → ∃ r,
    loop nodes size early approx left j (meanOf approx j) prev = (meanOf approx r, r) ∧ j ≤ r ∧ r ≤ j + left ∧
      (r = j + left ∨ (early = true ∧ minIter + 2 ≤ r ∧
        settled nodes size (means size (meanOf approx (r - 1))) (meanOf approx r) = true)) ∧ (0 < left → j < r)
  | 0, j, prev, _ => ⟨j, rfl, le_rfl, le_rfl, Or.inl rfl, fun h => absurd h (lt_irrefl 0)⟩
  | left + 1, j, prev, hp => by
      unfold loop
      dsimp only
      rw [update_mean]
      by_cases h : (early && decide (minIter < j) &&
          (prev.elim false fun p => settled nodes size p (meanOf approx (j + 1)))) = true
      · rw [if_pos h]
        refine ⟨j + 1, rfl, by omega, by omega, Or.inr ?_, fun _ => by omega⟩
        simp only [Bool.and_eq_true, decide_eq_true_eq] at h
        obtain ⟨⟨h1, h2⟩, h3⟩ := h
        cases hpr : prev with
        | none => rw [hpr] at h3; cases h3
        | some p =>
            rw [hpr] at h3
            dsimp only [Option.elim] at h3
            refine ⟨h1, by omega, ?_⟩
            rw [Nat.add_sub_cancel, ← (hp p hpr).2]
            exact h3
      · rw [if_neg h]
        obtain ⟨r, h1, h2, h3, h4, _⟩ := loop_spec nodes size early approx left (j + 1)
          (if early then some (means size (meanOf approx (j + 1))) else none) (by
            intro p hpp
            cases early with
            | false => simp at hpp
            | true => exact ⟨by omega, by simpa using hpp.symm⟩)
        refine ⟨r, h1, by omega, by omega, ?_, fun _ => by omega⟩
        rcases h4 with h4 | h4
        · exact Or.inl (by omega)
        · exact Or.inr h4

/-- **C121** (the loop).  The scores are the means of the approximations of the random vectors that were used: all
of them, or, if early stopping is on, the first `r ≥ 12`, where at the last vector the mean score of every layer
changed by less than a thousandth. -/
theorem C121_mean (nodes : ℕ) (size : ℕ → ℕ) (early : Bool) (approx : ℕ → Scores R) (n : ℕ) :
    ∃ r, (estimate nodes size early approx n).2 = r ∧ r ≤ n ∧ (0 < n → 0 < r) ∧
      (r = n ∨ (early = true ∧ 12 ≤ r ∧ ∀ k < nodes,
        |means size (meanOf approx r) k - means size (meanOf approx (r - 1)) k| <
          (|means size (meanOf approx r) k| + 1 / 1000000) / 1000)) ∧
      ∀ k i, (estimate nodes size early approx n).1 k i = (∑ t ∈ Finset.range r, approx t k i) / (r : R) := by
  have h0 : (fun _ _ => 0 : Scores R) = meanOf approx 0 := by
    funext k i; simp [meanOf]
  obtain ⟨r, h1, _, h3, h4, h5⟩ := loop_spec nodes size early approx n 0 none (by simp)
  unfold estimate
  rw [h0, h1]
  refine ⟨r, rfl, by omega, h5, ?_, fun k i => rfl⟩
  rcases h4 with h4 | ⟨he, hr, hs⟩
  · exact Or.inl (by omega)
  · refine Or.inr ⟨he, hr, fun k hk => ?_⟩
    unfold settled at hs
    rw [List.all_eq_true] at hs
    have := hs k (List.mem_range.mpr hk)
    simp only [decide_eq_true_eq] at this
    have hpos : 0 < |means size (meanOf approx r) k| + 1 / 1000000 := by positivity
    rw [div_lt_iff₀ hpos] at this
    linarith

omit [LinearOrder R] [IsStrictOrderedRing R] in
theorem expect_marginal [CharZero R] {V : Type} [Fintype V] [Nonempty V] {n : ℕ} (f : V → R) (t : Fin n) :
    expect (fun vs : Fin n → V => f (vs t)) = expect f := by
  unfold expect
  have hs : ∑ vs : Fin n → V, f (vs t) = ∑ p : V × ({j : Fin n // j ≠ t} → V), f p.1 :=
    Fintype.sum_equiv (Equiv.funSplitAt t V) _ _ fun vs => rfl
  rw [hs, Fintype.sum_prod_type, Fintype.card_congr (Equiv.funSplitAt t V), Fintype.card_prod]
  simp only [Finset.sum_const, Finset.card_univ, nsmul_eq_mul]
  rw [← Finset.mul_sum]
  have h1 : ((Fintype.card V : ℕ) : R) ≠ 0 := Nat.cast_ne_zero.mpr Fintype.card_ne_zero
  have h2 : ((Fintype.card ({j : Fin n // j ≠ t} → V) : ℕ) : R) ≠ 0 := Nat.cast_ne_zero.mpr Fintype.card_ne_zero
  push_cast
  field_simp

example : (estimate 1 (fun _ => 2) true (fun _ _ i => if i = 0 then (3 : ℚ) else 5) 100).2 = 12 := by decide +kernel
example : (estimate 1 (fun _ => 2) true (fun t _ _ => if t % 2 = 0 then (0 : ℚ) else 5) 100).2 = 100 := by decide +kernel

/-- **C121** (several random vectors).  Without early stopping, for independent random vectors, the mean of the
final score of every element over all sequences of `n` vectors is the sum of the squared derivatives. -/
theorem C121_unbiased_run {K E : Type} [Fintype K] [DecidableEq K] [Fintype E] (rows : R) (J : K → E → R) (e : E)
    (nodes : ℕ) (size : ℕ → ℕ) (n : ℕ) (hn : 0 < n) (a k : ℕ) :
    expect (fun vs : Fin n → K → Bool => (estimate nodes size false
      (fun t _ _ => if h : t < n then elementScore (grad rows J (vs ⟨t, h⟩)) e else 0) n).1 a k) =
      squares J e / rows ^ 2 := by
  have h1 : (fun vs : Fin n → K → Bool => (estimate nodes size false
      (fun t _ _ => if h : t < n then elementScore (grad rows J (vs ⟨t, h⟩)) e else 0) n).1 a k) =
      fun vs => (∑ t : Fin n, elementScore (grad rows J (vs t)) e) / (n : R) := by
    funext vs
    obtain ⟨r, _, _, _, h4, h5⟩ := C121_mean nodes size false
      (fun t _ _ => if h : t < n then elementScore (grad rows J (vs ⟨t, h⟩)) e else 0) n
    have hr : r = n := by
      rcases h4 with h4 | h4
      · exact h4
      · exact absurd h4.1 (by simp)
    rw [h5, hr, Finset.sum_range]
    simp
  rw [h1, expect_div, expect_sum]
  have h2 : ∀ t : Fin n, expect (fun vs : Fin n → K → Bool => elementScore (grad rows J (vs t)) e) =
      squares J e / rows ^ 2 := by
    intro t
    rw [← expect_element, expect_marginal (fun v => elementScore (grad rows J v) e) t]
    rfl
  rw [Finset.sum_congr rfl fun t _ => h2 t, Finset.sum_const, Finset.card_univ, Fintype.card_fin, nsmul_eq_mul]
  have : (n : R) ≠ 0 := Nat.cast_ne_zero.mpr hn.ne'
  field_simp

end

end MCT.Hutch
