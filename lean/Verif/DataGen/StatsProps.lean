/-
C118: the statistics of the generated images, and the alignment loss.
-/
import Verif.DataGen.Stats
import Verif.DataGen.Props
import Mathlib.Tactic.Ring
import Mathlib.Tactic.FieldSimp
import Mathlib.Tactic.NormNum
import Mathlib.Tactic.Positivity
import Mathlib.Algebra.Order.BigOperators.Group.List

namespace MCT.DataGen

/-! ### Averages -/

section field
variable {K : Type} [Field K] [CharZero K]

theorem avg_isMean {l : List K} (h : l ≠ []) : IsMeanOf (avg l) l := by
  unfold IsMeanOf avg
  have : (l.length : K) ≠ 0 := by simpa using h
  field_simp

theorem IsMeanOf.unique {l : List K} (h : l ≠ []) {m n : K} (hm : IsMeanOf m l) (hn : IsMeanOf n l) : m = n := by
  have : (l.length : K) ≠ 0 := by simpa using h
  unfold IsMeanOf at hm hn
  exact mul_right_cancel₀ this (hm.trans hn.symm)

theorem sum_sq_dev (l : List K) (m : K) :
    (l.map fun x => (x - m) ^ 2).sum = (l.map fun x => x ^ 2).sum - 2 * m * l.sum + l.length * m ^ 2 := by
  induction l with
  | nil => simp
  | cons a l ih => simp only [List.map_cons, List.sum_cons, ih, List.length_cons, Nat.cast_succ]; ring

theorem avg_def (l : List K) : avg l = l.sum / (l.length : K) := rfl

theorem momentsVar_eq {l : List K} (h : l ≠ []) :
    momentsVar l = avg (l.map fun x => x ^ 2) - (avg l) ^ 2 := by
  have hl : (l.length : K) ≠ 0 := by simpa using h
  unfold momentsVar
  rw [avg_def (l.map fun x => (x - avg l) ^ 2), avg_def (l.map fun x => x ^ 2), List.length_map, List.length_map,
    sum_sq_dev, avg_def l]
  field_simp
  ring

/-- Averages of batches of one size add up to the sum over all values. -/
theorem sum_avg_mul (f : K → K) {n : ℕ} (hn : 0 < n) :
    ∀ (bs : List (List K)), (∀ b ∈ bs, b.length = n) →
      (bs.map fun b => avg (b.map f)).sum * n = (bs.flatten.map f).sum
  | [], _ => by simp
  | b :: bs, h => by
      have hb := h b (by simp)
      have hne : (n : K) ≠ 0 := by exact_mod_cast hn.ne'
      have ih := sum_avg_mul f hn bs (fun x hx => h x (by simp [hx]))
      simp only [List.map_cons, List.sum_cons, List.flatten_cons, List.map_append, List.sum_append, add_mul, ih]
      congr 1
      unfold avg
      rw [List.length_map, hb]
      field_simp

theorem flatten_card {α : Type} {n : ℕ} : ∀ (bs : List (List α)), (∀ b ∈ bs, b.length = n) →
    bs.flatten.length = bs.length * n
  | [], _ => by simp
  | b :: bs, h => by
      rw [List.flatten_cons, List.length_append, flatten_card bs (fun x hx => h x (by simp [hx])),
        h b (by simp), List.length_cons]
      ring

/-- **C118** (PyTorch).  If all batches give the same number of values, the accumulated statistics of a channel
are the mean and the variance of its values over all images of all batches. -/
theorem C118_accumulated_torch (bs : List (List K)) (hbs : bs ≠ []) (n : ℕ) (hn : 0 < n)
    (h : ∀ b ∈ bs, b.length = n) :
    IsMeanOf (accumTorch (bs.map statTorch)).1 bs.flatten ∧ IsVarOf (accumTorch (bs.map statTorch)).2 bs.flatten := by
  have hne : (n : K) ≠ 0 := by exact_mod_cast hn.ne'
  have hl : (bs.length : K) ≠ 0 := by simpa using hbs
  have h1 := sum_avg_mul (K := K) id hn bs h
  have h2 := sum_avg_mul (K := K) (fun x => x ^ 2) hn bs h
  simp only [List.map_id] at h1
  have hcard : (bs.flatten.length : K) = bs.length * n := by rw [flatten_card bs h]; push_cast; ring
  have e1 : (accumTorch (bs.map statTorch)).1 = (bs.map fun b => avg b).sum / bs.length := by
    simp [accumTorch, statTorch, Function.comp_def]
  have e2 : (accumTorch (bs.map statTorch)).2 = (bs.map fun b => avg (b.map fun x => x ^ 2)).sum / bs.length -
      ((bs.map fun b => avg b).sum / bs.length) ^ 2 := by
    simp [accumTorch, statTorch, avgSq, Function.comp_def]
  have hm : IsMeanOf (accumTorch (bs.map statTorch)).1 bs.flatten := by
    unfold IsMeanOf
    rw [e1, hcard, ← h1]
    field_simp
  refine ⟨hm, _, hm, ?_⟩
  rw [sum_sq_dev, e1, e2, hcard, ← h1, ← h2]
  field_simp
  ring

/-- Keras: the accumulated variance and the variance of the means of the batches together are the variance of
all values. -/
theorem keras_decomposition (bs : List (List K)) (hbs : bs ≠ []) (n : ℕ) (hn : 0 < n)
    (h : ∀ b ∈ bs, b.length = n) :
    IsMeanOf (accumKeras (bs.map statKeras)).1 bs.flatten ∧
    IsVarOf ((accumKeras (bs.map statKeras)).2 + momentsVar (bs.map avg)) bs.flatten := by
  have hne : (n : K) ≠ 0 := by exact_mod_cast hn.ne'
  have hl : (bs.length : K) ≠ 0 := by simpa using hbs
  have h1 := sum_avg_mul (K := K) id hn bs h
  have h2 := sum_avg_mul (K := K) (fun x => x ^ 2) hn bs h
  simp only [List.map_id] at h1
  have hcard : (bs.flatten.length : K) = bs.length * n := by rw [flatten_card bs h]; push_cast; ring
  have e1 : (accumKeras (bs.map statKeras)).1 = (bs.map fun b => avg b).sum / bs.length := by
    simp [accumKeras, statKeras, Function.comp_def]
  have hm : IsMeanOf (accumKeras (bs.map statKeras)).1 bs.flatten := by
    unfold IsMeanOf
    rw [e1, hcard, ← h1]
    field_simp
  have hv : ∀ b ∈ bs, momentsVar b = avg (b.map fun x => x ^ 2) - (avg b) ^ 2 := by
    intro b hb
    have hbl := h b hb
    exact momentsVar_eq (by rintro rfl; simp at hbl; omega)
  have e2 : (accumKeras (bs.map statKeras)).2 =
      ((bs.map fun b => avg (b.map fun x => x ^ 2)).sum - (bs.map fun b => (avg b) ^ 2).sum) / bs.length := by
    have : (bs.map fun b => momentsVar b) = bs.map fun b => avg (b.map fun x => x ^ 2) - (avg b) ^ 2 :=
      List.map_congr_left hv
    simp only [accumKeras, statKeras, List.map_map, Function.comp_def, List.length_map, this]
    congr 1
    clear hv this e1 hm h1 h2 h hcard hbs hl
    induction bs with
    | nil => simp
    | cons b bs ih => simp only [List.map_cons, List.sum_cons, ih]; ring
  have e3 : momentsVar (bs.map avg) =
      (bs.map fun b => (avg b) ^ 2).sum / bs.length - ((bs.map fun b => avg b).sum / bs.length) ^ 2 := by
    rw [momentsVar_eq (by simpa using hbs), List.map_map, avg_def, avg_def, List.length_map, List.length_map]
    rfl
  refine ⟨hm, _, hm, ?_⟩
  rw [sum_sq_dev, e1, e2, e3, hcard, ← h1, ← h2]
  field_simp
  ring

end field

section ordered
variable {K : Type} [Field K] [LinearOrder K] [IsStrictOrderedRing K]

theorem momentsVar_nonneg (l : List K) : 0 ≤ momentsVar l := by
  unfold momentsVar
  conv_rhs => unfold avg
  apply div_nonneg
  · apply List.sum_nonneg
    intro x hx
    obtain ⟨y, _, rfl⟩ := List.mem_map.mp hx
    positivity
  · positivity

theorem momentsVar_zero {l : List K} (h : momentsVar l = 0) : ∀ x ∈ l, x = avg l := by
  intro x hx
  unfold momentsVar at h
  conv_lhs at h => unfold avg
  have hl : (l.length : K) ≠ 0 := by
    have : l ≠ [] := List.ne_nil_of_mem hx
    simpa using this
  rw [List.length_map, div_eq_zero_iff, or_iff_left hl] at h
  have hle : (x - l.sum / l.length) ^ 2 ≤ 0 := by
    rw [← h]
    apply List.single_le_sum
    · intro y hy
      obtain ⟨z, _, rfl⟩ := List.mem_map.mp hy
      positivity
    · exact List.mem_map.mpr ⟨x, hx, rfl⟩
  have : x - l.sum / l.length = 0 := by
    have h0 := le_antisymm hle (by positivity)
    exact pow_eq_zero_iff (two_ne_zero) |>.mp h0
  unfold avg
  linarith

/-- **C118** (Keras).  With batches of one size the accumulated mean is the mean over all images; the
accumulated variance is never above the variance of all values, and it is that variance exactly if all batches
have the same mean: what is kept as second moment of a batch is its variance, and the differences between the
batches are lost. -/
theorem C118_accumulated_keras (bs : List (List K)) (hbs : bs ≠ []) (n : ℕ) (hn : 0 < n)
    (h : ∀ b ∈ bs, b.length = n) (v : K) (hv : IsVarOf v bs.flatten) :
    IsMeanOf (accumKeras (bs.map statKeras)).1 bs.flatten ∧
    (accumKeras (bs.map statKeras)).2 ≤ v ∧
    ((accumKeras (bs.map statKeras)).2 = v ↔ ∀ b ∈ bs, ∀ b' ∈ bs, avg b = avg b') := by
  obtain ⟨hm, w, hw, hvar⟩ := keras_decomposition bs hbs n hn h
  obtain ⟨w', hw', hv⟩ := hv
  have hne : bs.flatten ≠ [] := by
    obtain ⟨b, l, rfl⟩ := List.exists_cons_of_ne_nil hbs
    have := h b (by simp)
    intro h0
    rw [List.flatten_cons, List.append_eq_nil_iff] at h0
    rw [h0.1] at this
    simp at this
    omega
  have hl : (bs.flatten.length : K) ≠ 0 := by
    exact_mod_cast (List.length_pos_iff.mpr hne).ne'
  have e : w = w' := hw.unique hne hw'
  subst e
  have ev : (accumKeras (bs.map statKeras)).2 + momentsVar (bs.map avg) = v :=
    mul_right_cancel₀ hl (hvar.trans hv.symm)
  have h0 := momentsVar_nonneg (bs.map avg)
  refine ⟨hm, by linarith, ?_⟩
  constructor
  · intro he b hb b' hb'
    have hz : momentsVar (bs.map avg) = 0 := by linarith
    have := momentsVar_zero hz
    rw [this _ (List.mem_map_of_mem hb), this _ (List.mem_map_of_mem hb')]
  · intro hall
    have hz : momentsVar (bs.map avg) = 0 := by
      obtain ⟨b, l, rfl⟩ := List.exists_cons_of_ne_nil hbs
      have hconst : ∀ x ∈ (b :: l).map avg, x = avg b := by
        intro x hx
        obtain ⟨b', hb', rfl⟩ := List.mem_map.mp hx
        exact hall b' hb' b (by simp)
      have hrep : (b :: l).map avg = List.replicate (l.length + 1) (avg b) := by
        rw [List.eq_replicate_iff]
        exact ⟨by simp, hconst⟩
      rw [hrep]
      have hk : ((l.length : K) + 1) ≠ 0 := by positivity
      have ha : avg (List.replicate (l.length + 1) (avg b)) = avg b := by
        generalize avg b = t
        unfold avg
        rw [List.sum_replicate, List.length_replicate, nsmul_eq_mul]
        push_cast
        field_simp
      unfold momentsVar
      rw [ha, List.map_replicate, sub_self]
      unfold avg
      simp
    linarith

end ordered

/-! ### Where the claim fails -/

/-- **C118, false if the last batch is smaller** (both frameworks): three images in batches of two, with one
value each; the mean of the values 0, 0 and 3 is 1, and the accumulated mean is 3/2. -/
theorem C118_unequal_batches_violated :
    batches 2 ([[[[0]]], [[[0]]], [[[3]]]] : List (Img ℚ)) = [[[[[0]]], [[[0]]]], [[[[3]]]]] ∧
    (accumTorch ([[0, 0], [3]].map statTorch) : ℚ × ℚ).1 = 3 / 2 ∧
    (accumKeras ([[0, 0], [3]].map statKeras) : ℚ × ℚ).1 = 3 / 2 ∧
    ¬ IsMeanOf (3 / 2 : ℚ) [0, 0, 3] := by
  refine ⟨?_, by norm_num [accumTorch, statTorch, avg], by norm_num [accumKeras, statKeras, avg],
    by norm_num [IsMeanOf]⟩
  rw [batches_cons (by simp) (by norm_num), List.take, List.take, List.take, List.drop, List.drop, List.drop,
    batches_cons (by simp) (by norm_num)]
  simp [batches_nil]

/-- **C118, false for Keras**: two batches of one size with the values 0, 0 and 2, 2 have variance 1, and the
accumulated variance is 0. -/
theorem C118_keras_variance_violated :
    (accumKeras ([[0, 0], [2, 2]].map statKeras) : ℚ × ℚ).2 = 0 ∧ IsVarOf (1 : ℚ) [0, 0, 2, 2] ∧
    (accumTorch ([[0, 0], [2, 2]].map statTorch) : ℚ × ℚ).2 = 1 := by
  refine ⟨by norm_num [accumKeras, statKeras, momentsVar, avg], ⟨1, by norm_num [IsMeanOf], by norm_num⟩,
    by norm_num [accumTorch, statTorch, avgSq, avg]⟩

/-- **C118, false after a step** (both frameworks).  For every run: after a batch was optimized, the statistics
of the input are those of the new images, but the statistics of all layers still come from the run of the
network on the augmented images before the step. -/
theorem C118_stale {K : Type} [Field K] [LinearOrder K] (fin : Batch K → Option (Batch K)) (manip : Manip K)
    (upd : Update K) (i b : ℕ) (s s' : St K) (x : Batch K) (hb : s.images[b]? = some x)
    (hk : b < s.kept.length) (h : stepBatch true true fin manip upd i b s = some s') :
    ∃ y f, s'.images[b]? = some y ∧ fin y = some f ∧
      ∃ k, s'.kept[b]? = some (some k) ∧
        (∀ net, keptValues true net k = f.flatMap net) ∧
        (∀ net, keptValues false net k = (manip i b x).flatMap net) := by
  unfold stepBatch at h
  rw [hb] at h
  dsimp only at h
  rw [if_neg (by simp), if_pos rfl] at h
  rw [Option.bind_eq_some_iff] at h
  obtain ⟨f, hf, h⟩ := h
  rw [Option.bind_some] at h
  have h := Option.some.inj h
  subst h
  have hbl := (List.getElem?_eq_some_iff.mp hb).1
  refine ⟨_, f, List.getElem?_set_self hbl, hf, ⟨f, manip i b x⟩, ?_, fun net => rfl, fun net => rfl⟩
  exact List.getElem?_set_self (by simpa using hk)

/-- A concrete run: one image, no augmentation, a step that adds one.  The statistics of a layer that passes
its input on are kept as 0 when the pixel has become 1. -/
theorem C118_stale_violated :
    ((stepBatch true true (finalizeBatch fun im => some im) (fun _ _ x => x) addOne 0 0
      (⟨[[[[[0]]]]], [none], none, []⟩ : St ℚ)).map fun s => (s.images.flatten.flatten.flatten.flatten, s.kept.map fun k => k.map fun k =>
        (keptValues true (fun im => im.flatten.flatten) k, keptValues false (fun im => im.flatten.flatten) k))) =
    some ([1], [some ([1], [0])]) := by decide +kernel

/-! ### The loss -/

theorem zipWith_sq_nonneg (a b : List ℝ) : 0 ≤ (List.zipWith (fun x y => (x - y) ^ 2) a b).sum := by
  apply List.sum_nonneg
  intro x hx
  obtain ⟨i, hi, rfl⟩ := List.getElem_of_mem hx
  rw [List.getElem_zipWith]
  positivity

theorem zipWith_sq_eq_zero : ∀ (a b : List ℝ), a.length = b.length →
    ((List.zipWith (fun x y => (x - y) ^ 2) a b).sum = 0 ↔ a = b)
  | [], [], _ => by simp
  | [], y :: b, h => by simp at h
  | x :: a, [], h => by simp at h
  | x :: a, y :: b, h => by
      have ih := zipWith_sq_eq_zero a b (by simpa using h)
      have hn := zipWith_sq_nonneg a b
      have hx : 0 ≤ (x - y) ^ 2 := by positivity
      rw [List.zipWith_cons_cons, List.sum_cons, List.cons_eq_cons]
      constructor
      · intro h0
        have h1 : (x - y) ^ 2 = 0 := by linarith
        have h2 : (List.zipWith (fun x y => (x - y) ^ 2) a b).sum = 0 := by linarith
        exact ⟨by have := pow_eq_zero_iff (two_ne_zero) |>.mp h1; linarith, ih.mp h2⟩
      · rintro ⟨rfl, rfl⟩
        rw [ih.mpr rfl]; ring

theorem l2Square_nonneg (den : ℕ) (a b c d : List ℝ) : 0 ≤ l2Square den a b c d := by
  unfold l2Square
  have h1 := zipWith_sq_nonneg b a
  have h2 := zipWith_sq_nonneg d c
  positivity

theorem l2Square_zero {den : ℕ} (hd : 0 < den) {a b c d : List ℝ} (h1 : b.length = a.length)
    (h2 : d.length = c.length) : l2Square den a b c d = 0 ↔ b = a ∧ d = c := by
  have e1 := zipWith_sq_eq_zero b a h1
  have e2 := zipWith_sq_eq_zero d c h2
  have n1 := zipWith_sq_nonneg b a
  have n2 := zipWith_sq_nonneg d c
  have hd' : (0 : ℝ) < den := by exact_mod_cast hd
  unfold l2Square
  rw [← e1, ← e2, ← add_div, div_eq_zero_iff, or_iff_left hd'.ne']
  constructor
  · intro h; constructor <;> linarith
  · rintro ⟨a, b⟩; rw [a, b, add_zero]

theorem weighted_sum_zero {α : Type} (w f : α → ℝ) : ∀ (l : List α), (∀ x ∈ l, 0 < w x ∧ 0 ≤ f x) →
    0 ≤ (l.map fun x => w x * f x).sum ∧ ((l.map fun x => w x * f x).sum = 0 ↔ ∀ x ∈ l, f x = 0)
  | [], _ => by simp
  | a :: l, h => by
      obtain ⟨h1, h2⟩ := weighted_sum_zero w f l (fun x hx => h x (by simp [hx]))
      obtain ⟨ha, hf⟩ := h a (by simp)
      have hp : 0 ≤ w a * f a := by positivity
      rw [List.map_cons, List.sum_cons]
      refine ⟨by linarith, ?_⟩
      simp only [List.mem_cons, forall_eq_or_imp]
      constructor
      · intro h0
        have e1 : w a * f a = 0 := by linarith
        exact ⟨by rcases mul_eq_zero.mp e1 with e | e
                  · exact absurd e ha.ne'
                  · exact e, h2.mp (by linarith)⟩
      · rintro ⟨e, e'⟩
        rw [e, h2.mpr e']; ring

theorem map_sqrt_eq {eps : ℝ} (he : 0 ≤ eps) {a b : List ℝ} (ha : ∀ v ∈ a, 0 ≤ v) (hb : ∀ v ∈ b, 0 ≤ v) :
    (a.map (fun v => Real.sqrt (v + eps)) = b.map fun v => Real.sqrt (v + eps)) ↔ a = b := by
  constructor
  · intro h
    have hl : a.length = b.length := by simpa using congrArg List.length h
    apply List.ext_getElem hl
    intro i h1 h2
    have := congrArg (fun l => l[i]?) h
    simp only [List.getElem?_map, List.getElem?_eq_getElem h1, List.getElem?_eq_getElem h2, Option.map_some,
      Option.some.injEq] at this
    have e := (Real.sqrt_inj (add_nonneg (ha _ (List.getElem_mem h1)) he)
      (add_nonneg (hb _ (List.getElem_mem h2)) he)).mp this
    linarith
  · rintro rfl; rfl

/-- **C118** (the loss of Keras).  For layers with positive weights the alignment loss is never negative, and
it is zero exactly if the statistics of the images are those of the network in every layer. -/
theorem C118_loss_keras (eps : ℝ) (he : 0 ≤ eps) (ls : List Aligned) (h : ∀ l ∈ ls, Comparable l) :
    0 ≤ lossKeras eps ls ∧ (lossKeras eps ls = 0 ↔ ∀ l ∈ ls, Agrees l) := by
  have key := weighted_sum_zero (fun l : Aligned => l.weight)
    (fun l => l2Square l.den l.bnMean l.imgMean (l.bnVar.map fun v => Real.sqrt (v + eps))
      (l.imgVar.map fun v => Real.sqrt (v + eps))) ls (fun l hl => ⟨(h l hl).weight_pos, l2Square_nonneg _ _ _ _ _⟩)
  refine ⟨key.1, key.2.trans ?_⟩
  apply forall₂_congr
  intro l hl
  have hc := h l hl
  rw [l2Square_zero hc.den_pos hc.len_mean (by simp [hc.len_var])]
  unfold Agrees
  rw [map_sqrt_eq he hc.img_nonneg hc.bn_nonneg]

/-- **C118** (the loss of PyTorch).  It is never negative; it is zero exactly if the means agree and every
variance of the network is the variance of the images plus `eps`. -/
theorem C118_loss_torch (eps : ℝ) (he : 0 ≤ eps) (ls : List Aligned) (h : ∀ l ∈ ls, Comparable l) :
    0 ≤ lossTorch eps ls ∧
      (lossTorch eps ls = 0 ↔ ∀ l ∈ ls, l.imgMean = l.bnMean ∧ l.bnVar = l.imgVar.map (· + eps)) := by
  have key := weighted_sum_zero (fun l : Aligned => l.weight)
    (fun l => l2Square l.den l.bnMean l.imgMean (l.bnVar.map Real.sqrt)
      (l.imgVar.map fun v => Real.sqrt (v + eps))) ls (fun l hl => ⟨(h l hl).weight_pos, l2Square_nonneg _ _ _ _ _⟩)
  refine ⟨key.1, key.2.trans ?_⟩
  apply forall₂_congr
  intro l hl
  have hc := h l hl
  rw [l2Square_zero hc.den_pos hc.len_mean (by simp [hc.len_var])]
  have := map_sqrt_eq (le_refl (0 : ℝ)) (a := l.imgVar.map (· + eps)) (b := l.bnVar) (by
    intro v hv
    obtain ⟨u, hu, rfl⟩ := List.mem_map.mp hv
    exact add_nonneg (hc.img_nonneg u hu) he) hc.bn_nonneg
  simp only [add_zero, List.map_map, Function.comp_def] at this
  rw [this]
  exact and_congr_right fun _ => eq_comm

/-- **C118, false for PyTorch**: with `eps` above zero images whose statistics are those of the network do not
have loss zero, if some layer has a channel. -/
theorem C118_torch_eps_violated (eps : ℝ) (he : 0 < eps) (ls : List Aligned) (h : ∀ l ∈ ls, Comparable l)
    (hagree : ∀ l ∈ ls, Agrees l) (l : Aligned) (hl : l ∈ ls) (hc : l.bnVar ≠ []) : 0 < lossTorch eps ls := by
  obtain ⟨h0, h1⟩ := C118_loss_torch eps he.le ls h
  rcases h0.lt_or_eq with h2 | h2
  · exact h2
  · exfalso
    have := (h1.mp h2.symm l hl).2
    rw [(hagree l hl).2] at this
    obtain ⟨v, t, ht⟩ := List.exists_cons_of_ne_nil hc
    rw [ht, List.map_cons, List.cons_eq_cons] at this
    linarith [this.1]

/-- The average weighting gives every layer the same weight, and the weights add up to one. -/
theorem C118_average_weights (names : List String) (h : names ≠ []) :
    (averageWeights names).map Prod.fst = names ∧ ((averageWeights names).map Prod.snd).sum = 1 ∧
      ∀ p ∈ averageWeights names, 0 < p.2 := by
  have hl : (0 : ℝ) < names.length := by exact_mod_cast List.length_pos_iff.mpr h
  refine ⟨by simp [averageWeights, Function.comp_def], ?_, ?_⟩
  · simp only [averageWeights, List.map_map, Function.comp_def, List.map_const', List.sum_replicate,
      nsmul_eq_mul]
    field_simp
  · intro p hp
    obtain ⟨n, _, rfl⟩ := List.mem_map.mp hp
    positivity

/-- The first layer has ten times the weight of each other layer, in both frameworks; only in Keras do the
weights shrink with the number of layers. -/
theorem C118_first_weights (n : String) (l : List String) :
    ∃ t k, firstWeightsTorch (n :: l) = some t ∧ firstWeightsKeras (n :: l) = some k ∧
      t.map Prod.fst = n :: l ∧ k.map Prod.fst = n :: l ∧
      (∀ (m : String) (w : ℝ), (m, w) ∈ t.tail → t.head? = some (n, 10 * w)) ∧
      (∀ (m : String) (w : ℝ), (m, w) ∈ k.tail → k.head? = some (n, 10 * w)) ∧
      (t.map Prod.snd).sum = 9 + (n :: l).length ∧
      (k.map Prod.snd).sum * (n :: l).length = 9 + (n :: l).length := by
  have hl : (0 : ℝ) < ((n :: l).length : ℝ) := by simp; positivity
  refine ⟨_, _, rfl, rfl, by simp [Function.comp_def], by simp [Function.comp_def], ?_, ?_, ?_, ?_⟩
  · intro m w hm
    rw [List.tail_cons] at hm
    obtain ⟨_, _, e⟩ := List.mem_map.mp hm
    have : w = 1 := (congrArg Prod.snd e).symm
    simp [this]
  · intro m w hm
    rw [List.tail_cons] at hm
    obtain ⟨_, _, e⟩ := List.mem_map.mp hm
    have : w = 1 / ((n :: l).length : ℝ) := (congrArg Prod.snd e).symm
    rw [this, List.head?_cons]
    simp only [Option.some.injEq, Prod.mk.injEq, true_and]
    ring
  · simp only [List.map_cons, List.map_map, Function.comp_def, List.map_const', List.sum_cons,
      List.sum_replicate, nsmul_eq_mul, mul_one, List.length_cons, Nat.cast_succ]
    ring
  · simp only [List.map_cons, List.map_map, Function.comp_def, List.map_const', List.sum_cons,
      List.sum_replicate, nsmul_eq_mul]
    field_simp
    simp
    ring

/-! ### The hypotheses can be met -/

example : IsMeanOf (accumTorch ([[1, 3], [5, 7]].map statTorch) : ℚ × ℚ).1 [1, 3, 5, 7] ∧
    (accumTorch ([[1, 3], [5, 7]].map statTorch) : ℚ × ℚ) = (4, 5) :=
  ⟨(C118_accumulated_torch [[1, 3], [5, 7]] (by simp) 2 (by norm_num) (by simp)).1,
    by norm_num [accumTorch, statTorch, avgSq, avg]⟩

/-- A layer that agrees. -/
noncomputable def layerA : Aligned := ⟨1, 2, [0, 1], [1, 4], [0, 1], [1, 4]⟩

theorem layerA_comparable : Comparable layerA where
  weight_pos := by simp [layerA]
  den_pos := by simp [layerA]
  len_mean := rfl
  len_var := rfl
  img_nonneg := by simp [layerA]
  bn_nonneg := by simp [layerA]

example : lossKeras 1 [layerA] = 0 ∧ 0 < lossTorch 1 [layerA] :=
  ⟨(C118_loss_keras 1 (by norm_num) [layerA] (by simpa using layerA_comparable)).2.mpr
      (by simp [Agrees, layerA]),
    C118_torch_eps_violated 1 (by norm_num) [layerA] (by simpa using layerA_comparable)
      (by simp [Agrees, layerA]) layerA (by simp) (by simp [layerA])⟩

end MCT.DataGen
