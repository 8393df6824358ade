/-
C143: the output losses of data generation.

Sources (under /repo/model_compression_toolkit/data_generation):
  pytorch/optimization_functions/output_loss_functions.py 22-147, keras/optimization_functions/output_loss_functions.py
  20-156, keras/keras_data_generation.py 330-346, pytorch/pytorch_data_generation.py 334-341.

Numbers are real.  An output of the model is a list with the elements of the output for each image of the batch
(`reshape(output, [batch, -1])`).
-/
import Mathlib.Analysis.SpecialFunctions.Pow.NNReal
import Mathlib.Algebra.Order.BigOperators.Group.List
import Mathlib.Algebra.BigOperators.Ring.List
import Mathlib.Algebra.BigOperators.Ring.Finset
import Mathlib.Algebra.Order.Chebyshev
import Mathlib.Tactic.Ring
import Mathlib.Tactic.Linarith
import Mathlib.Tactic.NormNum
import Mathlib.Tactic.Positivity

namespace MCT.DataGen.Out

/-- `reduce_max` of a row; an empty row is not reached. -/
def rowMax : List ℝ → ℝ
  | [] => 0
  | x :: xs => xs.foldl max x

/-- `reduce_min` of a row. -/
def rowMin : List ℝ → ℝ
  | [] => 0
  | x :: xs => xs.foldl min x

/-- `mean`. -/
noncomputable def avg (l : List ℝ) : ℝ := l.sum / l.length

/-- An output: its elements for each image. -/
abbrev Output := List (List ℝ)

/-- `negative_min_max_diff` of both frameworks (PyTorch 47-75, Keras 108-133): one number. -/
noncomputable def negative (outs : List Output) : ℝ :=
  (outs.map fun o => avg (o.map fun r => -(rowMax r - rowMin r))).sum

/-- `inverse_min_max_diff` of PyTorch (22-45): the inverse of the mean. -/
noncomputable def inverseTorch (eps : ℝ) (outs : List Output) : ℝ :=
  (outs.map fun o => 1 / avg (o.map fun r => rowMax r - rowMin r + eps)).sum

/-- `a + b` of vectors: one of length one is broadcast, other lengths must agree. -/
def addVec (a b : List ℝ) : Option (List ℝ) :=
  match a, b with
  | [x], b => some (b.map fun y => x + y)
  | a, [y] => some (a.map fun x => x + y)
  | a, b => if a.length = b.length then some (List.zipWith (· + ·) a b) else none

/-- `inverse_min_max_diff` of Keras (86-106): a number for each image of the batch. -/
noncomputable def inverseKeras (eps : ℝ) (outs : List Output) : Option (List ℝ) :=
  outs.foldl (fun acc o => acc.bind fun a => addVec a (o.map fun r => 1 / (rowMax r - rowMin r + eps))) (some [0])

/-- What is minimised when the loss is a vector: `tape.gradient` of a vector is the gradient of the sum of its
elements, `total_loss = bn_loss + multiplier * output_loss`. (`keras_data_generation.py` 337-343) -/
noncomputable def minimised (bn mult : ℝ) (out : List ℝ) : ℝ := (out.map fun x => bn + mult * x).sum

/-- The regularization of an extreme output: its distance to a bound from the norms of the layer.  The factor is 1/2 in
PyTorch (115-116) and 1 in Keras (69-72). -/
noncomputable def regTerm (factor value norm : ℝ) : ℝ := |(|value|) - factor * norm|

/-- `regularized_min_max_diff` for one image of one output: the outputs `r` of the last linear layer for each class, the
norms of the weights of each class and the norm of the input of the layer; `argmax` and `argmin` are the first places of
the extremes. (PyTorch 107-118, Keras 57-76) -/
noncomputable def regImage (factor eps : ℝ) (r wnorms : List ℝ) (xnorm : ℝ) : ℝ :=
  regTerm factor (rowMin r) (xnorm * wnorms.getD (r.idxOf (rowMin r)) 0) +
  regTerm factor (rowMax r) (xnorm * wnorms.getD (r.idxOf (rowMax r)) 0) +
  1 / (rowMax r - rowMin r + eps)

/-- The loss of one output: the mean over the images. -/
noncomputable def regularized (factor eps : ℝ) (wnorms : List ℝ) (images : List (List ℝ × ℝ)) : ℝ :=
  avg (images.map fun im => regImage factor eps im.1 wnorms im.2)

/-! ### Specification -/

/-- The distance of the largest to the smallest element. -/
def HasRange (r : List ℝ) (d : ℝ) : Prop := ∃ lo ∈ r, ∃ hi ∈ r, (∀ x ∈ r, lo ≤ x ∧ x ≤ hi) ∧ d = hi - lo

/-- The ranges of the images of an output. -/
def Ranges (o : Output) (ds : List ℝ) : Prop := List.Forall₂ HasRange o ds

/-! ### Lemmas -/

theorem foldl_max_spec (xs : List ℝ) (x : ℝ) :
    xs.foldl max x ∈ x :: xs ∧ ∀ y ∈ x :: xs, y ≤ xs.foldl max x := by
  induction xs generalizing x with
  | nil => exact ⟨List.mem_cons_self, fun y hy => by rw [List.mem_singleton] at hy; rw [hy]; exact le_refl _⟩
  | cons z zs ih =>
    rw [List.foldl_cons]
    obtain ⟨h1, h2⟩ := ih (max x z)
    constructor
    · rcases List.mem_cons.mp h1 with e | e
      · rcases max_choice x z with m | m
        · rw [e, m]; exact List.mem_cons_self
        · rw [e, m]; exact List.mem_cons_of_mem _ List.mem_cons_self
      · exact List.mem_cons_of_mem _ (List.mem_cons_of_mem _ e)
    · intro y hy
      have hm := h2 (max x z) List.mem_cons_self
      rcases List.mem_cons.mp hy with rfl | hy
      · exact le_trans (le_max_left _ _) hm
      · rcases List.mem_cons.mp hy with rfl | hy
        · exact le_trans (le_max_right _ _) hm
        · exact h2 y (List.mem_cons_of_mem _ hy)

theorem foldl_min_spec (xs : List ℝ) (x : ℝ) :
    xs.foldl min x ∈ x :: xs ∧ ∀ y ∈ x :: xs, xs.foldl min x ≤ y := by
  induction xs generalizing x with
  | nil => exact ⟨List.mem_cons_self, fun y hy => by rw [List.mem_singleton] at hy; rw [hy]; exact le_refl _⟩
  | cons z zs ih =>
    rw [List.foldl_cons]
    obtain ⟨h1, h2⟩ := ih (min x z)
    constructor
    · rcases List.mem_cons.mp h1 with e | e
      · rcases min_choice x z with m | m
        · rw [e, m]; exact List.mem_cons_self
        · rw [e, m]; exact List.mem_cons_of_mem _ List.mem_cons_self
      · exact List.mem_cons_of_mem _ (List.mem_cons_of_mem _ e)
    · intro y hy
      have hm := h2 (min x z) List.mem_cons_self
      rcases List.mem_cons.mp hy with rfl | hy
      · exact le_trans hm (min_le_left _ _)
      · rcases List.mem_cons.mp hy with rfl | hy
        · exact le_trans hm (min_le_right _ _)
        · exact h2 y (List.mem_cons_of_mem _ hy)

theorem range_eq {r : List ℝ} {d : ℝ} (h : HasRange r d) : rowMax r - rowMin r = d := by
  obtain ⟨lo, hlo, hi, hhi, hb, rfl⟩ := h
  cases r with
  | nil => cases hlo
  | cons x xs =>
    obtain ⟨a1, a2⟩ := foldl_max_spec xs x
    obtain ⟨b1, b2⟩ := foldl_min_spec xs x
    have e1 : rowMax (x :: xs) = hi := le_antisymm (hb _ a1).2 (a2 hi hhi)
    have e2 : rowMin (x :: xs) = lo := le_antisymm (b2 lo hlo) (hb _ b1).1
    rw [e1, e2]

theorem range_nonneg {r : List ℝ} {d : ℝ} (h : HasRange r d) : 0 ≤ d := by
  obtain ⟨lo, hlo, hi, hhi, hb, rfl⟩ := h
  exact sub_nonneg.mpr (hb lo hlo).2

theorem ranges_map {o : Output} {ds : List ℝ} (h : Ranges o ds) (f : ℝ → ℝ) :
    (o.map fun r => f (rowMax r - rowMin r)) = ds.map f := by
  unfold Ranges at h
  induction h with
  | nil => rfl
  | cons h1 _ ih => rw [List.map_cons, List.map_cons, ih, range_eq h1]

theorem ranges_nonneg {o : Output} {ds : List ℝ} (h : Ranges o ds) : ∀ d ∈ ds, 0 ≤ d := by
  unfold Ranges at h
  induction h with
  | nil => exact fun d hd => (by cases hd)
  | cons h1 _ ih =>
    intro d hd
    rcases List.mem_cons.mp hd with rfl | hd
    · exact range_nonneg h1
    · exact ih d hd

theorem outs_map {outs : List Output} {dss : List (List ℝ)} (h : List.Forall₂ Ranges outs dss) (F : List ℝ → ℝ)
    (f : ℝ → ℝ) : (outs.map fun o => F (o.map fun r => f (rowMax r - rowMin r))) = dss.map fun ds => F (ds.map f) := by
  induction h with
  | nil => rfl
  | cons h1 _ ih => rw [List.map_cons, List.map_cons, ih, ranges_map h1]

theorem sum_neg (l : List ℝ) : (l.map fun d => -d).sum = -l.sum := by
  induction l with
  | nil => simp
  | cons a l ih => rw [List.map_cons, List.sum_cons, List.sum_cons, ih]; ring

theorem sum_add_const (l : List ℝ) (c : ℝ) : (l.map fun d => d + c).sum = l.sum + l.length * c := by
  induction l with
  | nil => simp
  | cons a l ih => rw [List.map_cons, List.sum_cons, List.sum_cons, ih, List.length_cons]; push_cast; ring

/-! ### The losses -/

/-- **C143 (negative).**  In both frameworks the loss is the negative of the sum over the outputs of the mean ranges of
the images. -/
theorem C143_negative (outs : List Output) (dss : List (List ℝ)) (h : List.Forall₂ Ranges outs dss) :
    negative outs = -(dss.map fun (ds : List ℝ) => ds.sum / (ds.length : ℝ)).sum := by
  unfold negative
  rw [outs_map h avg fun d => -d]
  unfold avg
  rw [← sum_neg, List.map_map]
  congr 1
  refine List.map_congr_left fun ds _ => ?_
  simp only [Function.comp_apply]
  rw [sum_neg, List.length_map, neg_div]

/-- **C143 (inverse, PyTorch).**  The loss is the sum over the outputs of the inverses of the mean ranges. -/
theorem C143_inverse_torch (eps : ℝ) (outs : List Output) (dss : List (List ℝ)) (h : List.Forall₂ Ranges outs dss)
    (hne : ∀ ds ∈ dss, ds ≠ []) :
    inverseTorch eps outs = (dss.map fun ds => 1 / (ds.sum / ds.length + eps)).sum := by
  unfold inverseTorch
  rw [outs_map h (fun l => 1 / avg l) fun d => d + eps]
  congr 1
  refine List.map_congr_left fun ds hds => ?_
  have hl : (ds.length : ℝ) ≠ 0 := by
    have := List.length_pos_of_ne_nil (hne ds hds)
    exact_mod_cast this.ne'
  unfold avg
  rw [sum_add_const, List.length_map]
  congr 1
  field_simp

/-- The second image ranges are all at least the first ones, and one of them is larger. -/
def Wider (ds es : List ℝ) : Prop := List.Forall₂ (· ≤ ·) ds es ∧ ds.sum < es.sum

theorem wider_ne {ds es : List ℝ} (h : Wider ds es) : ds ≠ [] ∧ ds.length = es.length := by
  refine ⟨?_, h.1.length_eq⟩
  rintro rfl
  have := h.1
  cases this
  exact lt_irrefl _ h.2

/-- **C143 (wider ranges).**  If the range of every image is at least as wide and the range of one image is wider, the
loss of an output is lower, for the negative loss and for the inverse one. -/
theorem C143_wider (eps : ℝ) (heps : 0 < eps) (o o' : Output) (ds es : List ℝ) (h : Ranges o ds) (h' : Ranges o' es)
    (hw : Wider ds es) : negative [o'] < negative [o] ∧ inverseTorch eps [o'] < inverseTorch eps [o] := by
  obtain ⟨hne, hlen⟩ := wider_ne hw
  have hpos : (0 : ℝ) < ds.length := by exact_mod_cast List.length_pos_of_ne_nil hne
  have hne' : es ≠ [] := by
    intro e
    rw [e] at hlen
    exact hne (List.length_eq_zero_iff.mp hlen)
  have hlt : ds.sum / ds.length < es.sum / es.length := by
    rw [← hlen]
    exact (div_lt_div_iff_of_pos_right hpos).mpr hw.2
  have f1 : List.Forall₂ Ranges [o] [ds] := List.Forall₂.cons h List.Forall₂.nil
  have f2 : List.Forall₂ Ranges [o'] [es] := List.Forall₂.cons h' List.Forall₂.nil
  constructor
  · rw [C143_negative _ _ f1, C143_negative _ _ f2]
    simp only [List.map_cons, List.map_nil, List.sum_cons, List.sum_nil, add_zero]
    linarith
  · rw [C143_inverse_torch eps _ _ f1 (by simpa using hne), C143_inverse_torch eps _ _ f2 (by simpa using hne')]
    simp only [List.map_cons, List.map_nil, List.sum_cons, List.sum_nil, add_zero]
    have h0 : 0 ≤ ds.sum / ds.length :=
      div_nonneg (List.sum_nonneg (ranges_nonneg h)) hpos.le
    exact one_div_lt_one_div_of_lt (by linarith) (by linarith)

/-- A single output with a batch of ranges 1 and 3 is better than one of ranges 1 and 2. -/
example : Wider [1, 2] [1, 3] := ⟨by simp; norm_num, by norm_num⟩
example : HasRange [3, -1, 2] 4 := ⟨-1, by simp, 3, by simp, by norm_num, by norm_num⟩

/-! ### Keras: a loss for each image -/

theorem keras_single (eps : ℝ) (o : Output) :
    inverseKeras eps [o] = some (o.map fun r => 1 / (rowMax r - rowMin r + eps)) := by
  unfold inverseKeras
  simp only [List.foldl_cons, List.foldl_nil, Option.bind_some]
  unfold addVec
  simp only [List.map_map]
  congr 1
  refine List.map_congr_left fun r _ => ?_
  simp

theorem sum_affine (bn mult : ℝ) (l : List ℝ) : (l.map fun x => bn + mult * x).sum = l.length * bn + mult * l.sum := by
  induction l with
  | nil => simp
  | cons a l ih => rw [List.map_cons, List.sum_cons, ih, List.length_cons, List.sum_cons]; push_cast; ring

theorem am_hm_aux : ∀ (l : List ℝ), (∀ x ∈ l, 0 < x) → (l.length : ℝ) ^ 2 ≤ l.sum * (l.map fun x => 1 / x).sum
  | [], _ => by simp
  | a :: l, h => by
    have ih := am_hm_aux l fun x hx => h x (List.mem_cons_of_mem _ hx)
    have ha : 0 < a := h a List.mem_cons_self
    have hs : 0 ≤ l.sum := List.sum_nonneg fun x hx => (h x (List.mem_cons_of_mem _ hx)).le
    have hr : 0 ≤ (l.map fun x => 1 / x).sum := by
      refine List.sum_nonneg fun y hy => ?_
      obtain ⟨x, hx, rfl⟩ := List.mem_map.mp hy
      exact (one_div_pos.mpr (h x (List.mem_cons_of_mem _ hx))).le
    rw [List.map_cons, List.sum_cons, List.sum_cons, List.length_cons]
    push_cast
    generalize l.sum = s at *
    generalize (l.map fun x => 1 / x).sum = r at *
    have hn : (0 : ℝ) ≤ (l.length : ℝ) := Nat.cast_nonneg _
    generalize (l.length : ℝ) = n at *
    -- `2 n ≤ a r + s / a`
    have key : 2 * n ≤ a * r + s / a := by
      have h1 : 0 ≤ a * r := mul_nonneg ha.le hr
      have h2 : 0 ≤ s / a := div_nonneg hs ha.le
      have h3 : n ^ 2 ≤ (a * r) * (s / a) := by
        rw [show (a * r) * (s / a) = s * r by field_simp]; exact ih
      nlinarith [sq_nonneg (a * r - s / a), abs_le_of_sq_le_sq' (show (2 * n) ^ 2 ≤ (a * r + s / a) ^ 2 by
        nlinarith [sq_nonneg (a * r - s / a)]) (by linarith)]
    have e : (a + s) * (1 / a + r) = 1 + a * r + s / a + s * r := by field_simp; ring
    rw [e]
    nlinarith

/-- **C143 (inverse, Keras; violation).**  The loss of Keras is not one number: what is minimised for a batch of `b`
images is `b` times the alignment loss plus the *sum* over the images of the inverse ranges, and the mean of these is
at least the loss of PyTorch. -/
theorem C143_keras_inverse_violated (eps : ℝ) (heps : 0 < eps) (bn mult : ℝ) (o : Output) (ds : List ℝ)
    (h : Ranges o ds) (hne : ds ≠ []) :
    ∃ v, inverseKeras eps [o] = some v ∧ v = ds.map (fun d => 1 / (d + eps)) ∧
      minimised bn mult v = ds.length * bn + mult * (ds.map fun d => 1 / (d + eps)).sum ∧
      inverseTorch eps [o] ≤ (ds.map fun d => 1 / (d + eps)).sum / ds.length := by
  have hv : (o.map fun r => 1 / (rowMax r - rowMin r + eps)) = ds.map fun d => 1 / (d + eps) :=
    ranges_map h fun d => 1 / (d + eps)
  refine ⟨_, keras_single eps o, hv, ?_, ?_⟩
  · unfold minimised
    rw [hv, sum_affine, List.length_map]
  · have hl : (0 : ℝ) < ds.length := by exact_mod_cast List.length_pos_of_ne_nil hne
    rw [C143_inverse_torch eps [o] [ds] (List.Forall₂.cons h List.Forall₂.nil) (by simpa using hne)]
    simp only [List.map_cons, List.map_nil, List.sum_cons, List.sum_nil, add_zero]
    have hpos : ∀ x ∈ ds.map (fun d => d + eps), 0 < x := by
      intro x hx
      obtain ⟨d, hd, rfl⟩ := List.mem_map.mp hx
      linarith [ranges_nonneg h d hd]
    have am := am_hm_aux (ds.map fun d => d + eps) hpos
    rw [List.length_map, sum_add_const, List.map_map] at am
    have e : (ds.map ((fun x => 1 / x) ∘ fun d => d + eps)) = ds.map fun d => 1 / (d + eps) := rfl
    rw [e] at am
    have hs : 0 ≤ ds.sum := List.sum_nonneg (ranges_nonneg h)
    have hm : 0 < ds.sum / ds.length + eps := by positivity
    rw [div_le_div_iff₀ hm hl]
    have : (ds.map fun d => 1 / (d + eps)).sum * (ds.sum / ds.length + eps) * ds.length =
        (ds.sum + ds.length * eps) * (ds.map fun d => 1 / (d + eps)).sum := by field_simp
    nlinarith

/-- A batch of ranges 1 and 3 without `eps`-rounding: the objective has four parts of alignment loss for four images. -/
example : minimised 5 2 [1, 1, 1, 1] = 4 * 5 + 2 * 4 := by unfold minimised; norm_num

/-! ### Regularization -/

/-- The Euclidean norm. -/
noncomputable def norm2 {n : ℕ} (x : Fin n → ℝ) : ℝ := Real.sqrt (∑ i, x i ^ 2)

/-- The output of a linear layer without bias for one class. -/
def linearOut {n : ℕ} (w x : Fin n → ℝ) : ℝ := ∑ i, w i * x i

theorem cauchy {n : ℕ} (w x : Fin n → ℝ) : |linearOut w x| ≤ norm2 x * norm2 w := by
  unfold linearOut norm2
  rw [← Real.sqrt_mul (Finset.sum_nonneg fun i _ => sq_nonneg _)]
  apply Real.le_sqrt_of_sq_le
  rw [sq_abs, mul_comm (∑ i, x i ^ 2)]
  exact Finset.sum_mul_sq_le_sq_mul_sq _ _ _

/-- **C143 (regularization).**  For a linear layer without bias and its input, an output never exceeds the product of
the norms; with factor 1 (Keras) the regularization falls as the size of the output grows, up to the bound, where it is
zero. -/
theorem C143_regularized {n : ℕ} (w x x' : Fin n → ℝ) (hx : norm2 x = norm2 x') :
    0 ≤ regTerm 1 (linearOut w x) (norm2 x * norm2 w) ∧
    (regTerm 1 (linearOut w x) (norm2 x * norm2 w) = 0 ↔ |linearOut w x| = norm2 x * norm2 w) ∧
    (|linearOut w x| < |linearOut w x'| ↔
      regTerm 1 (linearOut w x') (norm2 x' * norm2 w) < regTerm 1 (linearOut w x) (norm2 x * norm2 w)) := by
  have h1 := cauchy w x
  have h2 := cauchy w x'
  unfold regTerm
  rw [one_mul, one_mul]
  rw [abs_of_nonpos (by linarith : |linearOut w x| - norm2 x * norm2 w ≤ 0),
    abs_of_nonpos (by linarith : |linearOut w x'| - norm2 x' * norm2 w ≤ 0), ← hx]
  refine ⟨by linarith, ⟨fun h => by linarith, fun h => by linarith⟩, ⟨fun h => by linarith, fun h => by linarith⟩⟩

/-- **C143 (regularization, PyTorch; violation).**  With the factor 1/2 the regularization is zero at half of the bound,
and above it grows with the size of the output, although the output is within the bound. -/
theorem C143_torch_half_violated {n : ℕ} (w x x' : Fin n → ℝ) (hx : norm2 x = norm2 x')
    (h : norm2 x * norm2 w / 2 ≤ |linearOut w x|) (hlt : |linearOut w x| < |linearOut w x'|) :
    |linearOut w x'| ≤ norm2 x' * norm2 w ∧
    regTerm (1 / 2) (linearOut w x) (norm2 x * norm2 w) < regTerm (1 / 2) (linearOut w x') (norm2 x' * norm2 w) := by
  refine ⟨cauchy w x', ?_⟩
  unfold regTerm
  rw [← hx, abs_of_nonneg (a := |linearOut w x| - _) (by linarith), abs_of_nonneg (a := |linearOut w x'| - _) (by linarith)]
  linarith

/-- **C143 (regularization of the extremes).**  The loss of an image regularizes the largest and the smallest output of a
linear layer, each with the weights of its own class, and adds the inverse of the range. -/
theorem C143_regularized_classes {n : ℕ} (factor eps : ℝ) (ws : List (Fin n → ℝ)) (hne : ws ≠ []) (x : Fin n → ℝ) :
    ∃ lo ∈ ws, ∃ hi ∈ ws, (∀ w ∈ ws, linearOut lo x ≤ linearOut w x ∧ linearOut w x ≤ linearOut hi x) ∧
      regImage factor eps (ws.map fun w => linearOut w x) (ws.map norm2) (norm2 x) =
        regTerm factor (linearOut lo x) (norm2 x * norm2 lo) + regTerm factor (linearOut hi x) (norm2 x * norm2 hi) +
          1 / (linearOut hi x - linearOut lo x + eps) := by
  have pick : ∀ v ∈ ws.map (fun w => linearOut w x), ∃ w ∈ ws, linearOut w x = v ∧
      (ws.map norm2).getD ((ws.map fun w => linearOut w x).idxOf v) 0 = norm2 w := by
    intro v hv
    have hi : (ws.map fun w => linearOut w x).idxOf v < (ws.map fun w => linearOut w x).length :=
      List.idxOf_lt_length_iff.mpr hv
    have hi' : (ws.map fun w => linearOut w x).idxOf v < ws.length := by simpa using hi
    refine ⟨ws[(ws.map fun w => linearOut w x).idxOf v], List.getElem_mem hi', ?_, ?_⟩
    · have := List.getElem_idxOf hi
      rw [List.getElem_map] at this
      exact this
    · rw [List.getD_eq_getElem?_getD, List.getElem?_map, List.getElem?_eq_getElem hi']
      rfl
  have hmax : rowMax (ws.map fun w => linearOut w x) ∈ ws.map (fun w => linearOut w x) ∧
      ∀ y ∈ ws.map (fun w => linearOut w x), y ≤ rowMax (ws.map fun w => linearOut w x) := by
    cases ws with
    | nil => exact absurd rfl hne
    | cons w ws => exact foldl_max_spec _ _
  have hmin : rowMin (ws.map fun w => linearOut w x) ∈ ws.map (fun w => linearOut w x) ∧
      ∀ y ∈ ws.map (fun w => linearOut w x), rowMin (ws.map fun w => linearOut w x) ≤ y := by
    cases ws with
    | nil => exact absurd rfl hne
    | cons w ws => exact foldl_min_spec _ _
  obtain ⟨hi, hhi, e1, e2⟩ := pick _ hmax.1
  obtain ⟨lo, hlo, e3, e4⟩ := pick _ hmin.1
  refine ⟨lo, hlo, hi, hhi, fun w hw => ⟨?_, ?_⟩, ?_⟩
  · rw [e3]; exact hmin.2 _ (List.mem_map_of_mem hw)
  · rw [e1]; exact hmax.2 _ (List.mem_map_of_mem hw)
  · unfold regImage
    rw [e2, e4, e1, e3]

/-- **C143 (mean of the images).** -/
theorem C143_regularized_mean (factor eps : ℝ) (wnorms : List ℝ) (images : List (List ℝ × ℝ)) (h : images ≠ []) :
    regularized factor eps wnorms images * (images.length : ℝ) =
      (images.map fun im => regImage factor eps im.1 wnorms im.2).sum := by
  unfold regularized avg
  have : (images.length : ℝ) ≠ 0 := by exact_mod_cast (List.length_pos_of_ne_nil h).ne'
  rw [List.length_map]
  field_simp

example : norm2 ![3, 4] * norm2 ![1, 0] / 2 ≤ |linearOut ![1, 0] ![3, 4]| ∧
    |linearOut ![1, 0] ![3, 4]| < |linearOut ![1, 0] ![5, 0]| ∧ norm2 ![3, 4] = norm2 ![5, 0] := by
  have e1 : norm2 ![3, 4] = 5 := by
    unfold norm2
    rw [Fin.sum_univ_two, show ((![3, 4] : Fin 2 → ℝ) 0 ^ 2 + (![3, 4] : Fin 2 → ℝ) 1 ^ 2) = 5 ^ 2 by norm_num]
    exact Real.sqrt_sq (by norm_num)
  have e2 : norm2 ![1, 0] = 1 := by
    unfold norm2
    rw [Fin.sum_univ_two]
    norm_num
  have e3 : norm2 ![5, 0] = 5 := by
    unfold norm2
    rw [Fin.sum_univ_two, show ((![5, 0] : Fin 2 → ℝ) 0 ^ 2 + (![5, 0] : Fin 2 → ℝ) 1 ^ 2) = 5 ^ 2 by norm_num]
    exact Real.sqrt_sq (by norm_num)
  rw [e1, e2, e3]
  unfold linearOut
  rw [Fin.sum_univ_two, Fin.sum_univ_two]
  norm_num

end MCT.DataGen.Out
