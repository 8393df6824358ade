import Verif.Sens.MetricModel
import Mathlib.Analysis.MeanInequalities
import Mathlib.Algebra.Order.Chebyshev

/-! # What the metric of the search measures -/

namespace MCT.Sens

set_option linter.unusedSimpArgs false
set_option linter.unusedVariables false

noncomputable section

variable {α : Type}

/-! ### Specification -/

/-- The mean over the images of the distance at a point. -/
def meanAt (S : List α) (p : Point α) : ℝ := (S.map fun s => p.fn.sample (p.ref s) (p.mp s)).sum / S.length

/-- The weighted mean `Σ w_i x_i / Σ w_i`. -/
def weightedMean (ws xs : List ℝ) : ℝ := (List.zipWith (fun w x => w * x) ws xs).sum / ws.sum

/-- The combination of the means of the interest points. -/
def combined (w : Weighting) (xs : List ℝ) : ℝ :=
  match w with
  | .avg => xs.sum / xs.length
  | .lastLayer => xs.getLastD 0
  | .hessian ws => weightedMean ws xs
  | .exp sigma => weightedMean (xs.map fun x => 1 - Real.exp (-x / sigma)) xs

/-- The number the search should use for a configuration: the combination of the mean distances of the
interest points plus the mean of the mean distances of the outputs (a part without points counts 0). -/
def metricSpec (w : Weighting) (S : List α) (ips outs : List (Point α)) : ℝ :=
  (if ips = [] then 0 else combined w (ips.map (meanAt S))) +
    if outs = [] then 0 else (outs.map (meanAt S)).sum / outs.length

/-- No image makes the output of the point zero in both models, if the point is compared by cosine. -/
def NonzeroAt (S : List α) (p : Point α) : Prop :=
  p.fn = .cosine → ∀ s ∈ S, ¬ (isZero (p.ref s) ∧ isZero (p.mp s))

/-- The weights are usable: as many Hessian scores as points with a sum other than zero. -/
def UsableWeights (w : Weighting) (S : List α) (ips : List (Point α)) : Prop :=
  match w with
  | .hessian ws => ws.length = ips.length ∧ ws.sum ≠ 0
  | .exp sigma => 0 < sigma ∧ ∀ p ∈ ips, 0 ≤ meanAt S p
  | _ => True

/-! ### The images -/

theorem imagesFrom_flatten (num : ℕ) : ∀ (gen : List (List α)) (count : ℕ),
    (imagesFrom num count gen).flatten = gen.flatten.take (num - count) := by
  intro gen
  induction gen with
  | nil => intro count; simp [imagesFrom]
  | cons b bs ih =>
    intro count
    unfold imagesFrom
    split
    · rename_i h
      have : num - count = 0 := by omega
      simp [this]
    · rename_i h
      split
      · rename_i h2
        rw [List.flatten_cons, ih]
        have e : num - (count + (num - count)) = 0 := by omega
        rw [e, List.flatten_cons, List.take_zero, List.append_nil,
          List.take_append_of_le_length (by omega)]
      · rename_i h2
        rw [List.flatten_cons, ih, List.flatten_cons, List.take_append]
        have e : num - (count + b.length) = num - count - b.length := by omega
        rw [e, List.take_of_length_le (l := b) (by omega)]

/-- **C104.** The images are the first `num_of_images` samples of the generator, in their order,
however the generator cuts them into batches; all of them if there are fewer. -/
theorem C104_images (num : ℕ) (gen : List (List α)) :
    (images num gen).flatten = gen.flatten.take num := by
  unfold images; rw [imagesFrom_flatten]; rfl

theorem imagesFrom_nonempty (num : ℕ) : ∀ (gen : List (List α)) (count : ℕ),
    (∀ b ∈ gen, b ≠ []) → ∀ b ∈ imagesFrom num count gen, b ≠ [] := by
  intro gen
  induction gen with
  | nil => intro count _ b hb; simp [imagesFrom] at hb
  | cons c bs ih =>
    intro count h b hb
    unfold imagesFrom at hb
    have ih' := fun k => ih k fun b hb => h b (by simp [hb])
    split at hb
    · simp at hb
    · rename_i h1
      split at hb
      · rename_i h2
        rcases List.mem_cons.mp hb with e | hb
        · rw [e]
          intro hn
          have := congrArg List.length hn
          rw [List.length_take] at this
          simp at this
          have hc := h c (by simp)
          rcases this with h3 | h3
          · omega
          · exact hc h3
        · exact ih' _ b hb
      · rcases List.mem_cons.mp hb with e | hb
        · rw [e]; exact h c (by simp)
        · exact ih' _ b hb

example : images 5 [[1, 2], [3, 4], [5, 6], [7, 8]] = [[1, 2], [3, 4], [5]] := by decide

/-! ### The matrices -/

/-- The row of a point: its distances for the images. -/
def rowOf (S : List α) (p : Point α) : List ℝ := S.map fun s => p.fn.sample (p.ref s) (p.mp s)

theorem batch_vec {p : Point α} {b : List α} (hb : b ≠ []) (h : NonzeroAt b p) :
    p.fn.batch (b.map fun s => (p.ref s, p.mp s)) = .vec (rowOf b p) := by
  unfold DistFn.batch
  split
  · rename_i hf
    rw [if_neg]
    · rw [List.map_map]; simp only [rowOf, hf]; rfl
    · intro hall
      obtain ⟨s, hs⟩ := List.exists_mem_of_ne_nil b hb
      exact h hf s hs (hall (p.ref s, p.mp s) (List.mem_map.mpr ⟨s, hs, rfl⟩))
  · rw [List.map_map]; rfl

theorem vecs_all (n : ℕ) : ∀ (vs : List (List ℝ)), (∀ v ∈ vs, v.length = n) →
    vecs n (vs.map Dist.vec) = some vs := by
  intro vs
  induction vs with
  | nil => intro _; rfl
  | cons v vs ih =>
    intro h
    simp only [List.map_cons, vecs]
    rw [if_pos (h v (by simp)), ih fun u hu => h u (by simp [hu])]
    rfl

theorem asMatrix_vec {n : ℕ} {vs : List (List ℝ)} (h : ∀ v ∈ vs, v.length = n) :
    asMatrix (vs.map Dist.vec) = some vs := by
  cases vs with
  | nil => rfl
  | cons v vs =>
    have hv := h v (by simp)
    show vecs v.length (Dist.vec v :: vs.map Dist.vec) = some (v :: vs)
    rw [hv]
    exact vecs_all n (v :: vs) h

theorem pointsDistance_eq {ps : List (Point α)} {b : List α} (hb : b ≠ [])
    (h : ∀ p ∈ ps, NonzeroAt b p) : pointsDistance ps b = some (ps.map (rowOf b)) := by
  unfold pointsDistance
  have : (ps.map fun p => p.fn.batch (b.map fun s => (p.ref s, p.mp s))) =
      (ps.map (rowOf b)).map Dist.vec := by
    rw [List.map_map]
    apply List.map_congr_left
    intro p hp
    exact batch_vec hb (h p hp)
  rw [this]
  apply asMatrix_vec (n := b.length)
  intro v hv
  rw [List.mem_map] at hv
  obtain ⟨p, -, e⟩ := hv
  rw [← e]; simp [rowOf]

theorem mapM_some {β γ : Type} {f : β → Option γ} {g : β → γ} : ∀ {l : List β},
    (∀ x ∈ l, f x = some (g x)) → l.mapM f = some (l.map g) := by
  intro l
  induction l with
  | nil => intro _; rfl
  | cons a l ih =>
    intro h
    rw [List.mapM_cons, h a (by simp), ih fun x hx => h x (by simp [hx])]
    rfl

theorem distances_eq {ps : List (Point α)} {bs : List (List α)} (hne : bs ≠ [])
    (hb : ∀ b ∈ bs, b ≠ []) (h : ∀ p ∈ ps, NonzeroAt bs.flatten p) :
    distances ps bs = some (ps.map (rowOf bs.flatten)) := by
  unfold distances
  rw [mapM_some (g := fun b => ps.map (rowOf b))]
  · rw [Option.bind_some]
    unfold hconcat
    rw [if_neg (by simpa using hne)]
    congr 1
    apply List.ext_getElem
    · simp
    · intro i h1 h2
      rw [List.getElem_map, List.getElem_range, List.getElem_map]
      have hi : i < ps.length := by simpa using h2
      unfold rowOf
      rw [List.map_flatten, List.flatMap_map]
      rw [List.flatMap_def]
      congr 1
      apply List.map_congr_left
      intro b _
      simp [List.getD_eq_getElem?_getD, hi]
  · intro b hbm
    apply pointsDistance_eq (hb b hbm)
    intro p hp hf s hs
    exact h p hp hf s (List.mem_flatten.mpr ⟨b, hbm, hs⟩)

theorem mean_row (S : List α) (p : Point α) : mean (rowOf S p) = meanAt S p := by
  simp [mean, rowOf, meanAt]

theorem sum_rows {S : List α} (hS : S ≠ []) (ps : List (Point α)) :
    ((ps.map (rowOf S)).map List.sum).sum = (ps.map (meanAt S)).sum * S.length := by
  have hl : (S.length : ℝ) ≠ 0 := by simpa using hS
  induction ps with
  | nil => simp
  | cons p ps ih =>
    rw [List.map_cons, List.map_cons, List.sum_cons, ih, List.map_cons, List.sum_cons, add_mul]
    congr 1
    simp only [meanAt, rowOf]
    field_simp

theorem sum_zero_nonneg : ∀ {xs : List ℝ}, (∀ x ∈ xs, 0 ≤ x) → xs.sum = 0 → ∀ x ∈ xs, x = 0 := by
  intro xs
  induction xs with
  | nil => intro _ _ x hx; simp at hx
  | cons a xs ih =>
    intro h h0 x hx
    have ha := h a (by simp)
    have hs : 0 ≤ xs.sum := List.sum_nonneg fun y hy => h y (by simp [hy])
    rw [List.sum_cons] at h0
    rcases List.mem_cons.mp hx with e | hx
    · rw [e]; linarith
    · exact ih (fun y hy => h y (by simp [hy])) (by linarith) x hx

theorem mean_flatten {S : List α} (hS : S ≠ []) (ps : List (Point α)) (hps : ps ≠ []) :
    mean (ps.map (rowOf S)).flatten = (ps.map (meanAt S)).sum / ps.length := by
  unfold mean
  rw [List.length_flatten, List.sum_flatten]
  have h1 : ((ps.map (rowOf S)).map List.length).sum = ps.length * S.length := by
    have : ((ps.map (rowOf S)).map List.length) = List.replicate ps.length S.length := by
      rw [List.map_map]
      have : (List.length ∘ rowOf S : Point α → ℕ) = fun _ => S.length := by
        funext p; simp [rowOf]
      rw [this, List.map_const']
    rw [this]; simp
  have h2 := sum_rows hS ps
  rw [h1, h2]
  have hl : (S.length : ℝ) ≠ 0 := by simpa using hS
  push_cast
  rw [mul_div_mul_right _ _ hl]

theorem flatten_length_ne {S : List α} (hS : S ≠ []) {ps : List (Point α)} (hps : ps ≠ []) :
    (ps.map (rowOf S)).flatten.length ≠ 0 := by
  obtain ⟨p, ps', e⟩ := List.exists_cons_of_ne_nil hps
  subst e
  obtain ⟨s, S', e⟩ := List.exists_cons_of_ne_nil hS
  subst e
  simp [rowOf]

theorem zipWith_swap (xs ws : List ℝ) :
    List.zipWith (fun x w => x * w) xs ws = List.zipWith (fun w x => w * x) ws xs := by
  rw [List.zipWith_comm]
  congr 1
  funext a b; ring

theorem one_sub_exp_nonneg {x sigma : ℝ} (hs : 0 < sigma) (hx : 0 ≤ x) : 0 ≤ 1 - Real.exp (-x / sigma) := by
  have : Real.exp (-x / sigma) ≤ 1 := by
    rw [Real.exp_le_one_iff, neg_div]
    have := div_nonneg hx hs.le
    linarith
  linarith

theorem iptsMeasure_eq {w : Weighting} {S : List α} (hS : S ≠ []) {ips : List (Point α)} (hps : ips ≠ [])
    (hw : UsableWeights w S ips) :
    iptsMeasure w (ips.map (rowOf S)) = some (combined w (ips.map (meanAt S))) := by
  have hmap : (ips.map (rowOf S)).map mean = ips.map (meanAt S) := by
    rw [List.map_map]
    apply List.map_congr_left
    intro p _
    exact mean_row S p
  cases w with
  | avg =>
    simp only [iptsMeasure, combined]
    rw [mean_flatten hS ips hps, List.length_map]
  | lastLayer =>
    simp only [iptsMeasure, combined]
    rw [List.getLast?_map, Option.map_map, List.getLastD_eq_getLast?, List.getLast?_map]
    rw [List.getLast?_eq_some_getLast hps]
    simp [mean_row]
  | hessian ws =>
    simp only [iptsMeasure, combined, average]
    rw [hmap, if_pos ⟨by simpa using hw.1.symm, hw.2⟩, zipWith_swap]
    rfl
  | exp sigma =>
    simp only [iptsMeasure, combined]
    rw [hmap]
    obtain ⟨hs, hnn⟩ := hw
    have hnn' : ∀ x ∈ ips.map (meanAt S), 0 ≤ x := by
      intro x hx
      obtain ⟨p, hp, e⟩ := List.mem_map.mp hx
      rw [← e]; exact hnn p hp
    generalize ips.map (meanAt S) = xs at hnn' ⊢
    split
    · rename_i h
      unfold average
      rw [if_pos]
      · rw [zipWith_swap]; rfl
      · refine ⟨by simp, ?_⟩
        intro h0
        obtain ⟨x, hx, hne⟩ := h
        have hall : ∀ y ∈ xs.map (fun x => 1 - Real.exp (-x / sigma)), 0 ≤ y := by
          intro y hy
          obtain ⟨z, hz, e⟩ := List.mem_map.mp hy
          rw [← e]; exact one_sub_exp_nonneg hs (hnn' z hz)
        exact hne (sum_zero_nonneg hall h0 x hx)
    · rename_i h
      push Not at h
      have : (xs.map fun x => 1 - Real.exp (-x / sigma)).sum = 0 := by
        apply List.sum_eq_zero
        exact h
      unfold weightedMean
      rw [this, div_zero]

/-- **C104, partial.** The metric is the specified combination of mean distances over the first
`num_of_images` images, whatever the batches of the generator are.  Missing: points compared by cosine
that are zero in both models (`C104_zero_violated`). -/
theorem C104_value_partial (w : Weighting) (num : ℕ) (gen : List (List α)) (ips outs : List (Point α))
    (hgen : ∀ b ∈ gen, b ≠ []) (hS : gen.flatten.take num ≠ []) (hp : ips ≠ [] ∨ outs ≠ [])
    (hz : ∀ p ∈ ips ++ outs, NonzeroAt (gen.flatten.take num) p)
    (hw : UsableWeights w (gen.flatten.take num) ips) :
    metric w num gen ips outs = some (metricSpec w (gen.flatten.take num) ips outs) := by
  unfold metric
  have hfl := C104_images num gen
  have hne : images num gen ≠ [] := by
    intro h
    rw [h] at hfl
    exact hS hfl.symm
  have hb : ∀ b ∈ images num gen, b ≠ [] := imagesFrom_nonempty num gen 0 hgen
  have h1 : distances ips (images num gen) = some (ips.map (rowOf (gen.flatten.take num))) := by
    rw [distances_eq hne hb (by rw [hfl]; exact fun p h => hz p (by simp [h])), hfl]
  have h2 : distances outs (images num gen) = some (outs.map (rowOf (gen.flatten.take num))) := by
    rw [distances_eq hne hb (by rw [hfl]; exact fun p h => hz p (by simp [h])), hfl]
  rw [h1, h2, Option.bind_some, Option.bind_some]
  unfold mpMeasure metricSpec
  have hl : ∀ ps : List (Point α), (ps.map (rowOf (gen.flatten.take num))).flatten.length ≠ 0 ↔ ps ≠ [] := by
    intro ps
    constructor
    · intro h e; rw [e] at h; simp at h
    · exact flatten_length_ne hS
  rw [if_neg]
  · by_cases hi : ips = []
    · by_cases ho : outs = []
      · exact absurd hp (by simp [hi, ho])
      · have h0 : ¬ (ips.map (rowOf (gen.flatten.take num))).flatten.length ≠ 0 := by simp [hi]
        rw [if_neg h0, if_pos ((hl outs).mpr ho), if_pos hi, if_neg ho, mean_flatten hS outs ho]
        rfl
    · rw [if_pos ((hl ips).mpr hi), iptsMeasure_eq hS hi hw, if_neg hi]
      by_cases ho : outs = []
      · have h0 : ¬ (outs.map (rowOf (gen.flatten.take num))).flatten.length ≠ 0 := by simp [ho]
        rw [if_neg h0, if_pos ho]; rfl
      · rw [if_pos ((hl outs).mpr ho), if_neg ho, mean_flatten hS outs ho]; rfl
  · rcases hp with h | h
    · have := (hl ips).mpr h; omega
    · have := (hl outs).mpr h; omega

/-- **C104, partial.** How the same images are cut into batches does not change the metric. -/
theorem C104_batches_partial (w : Weighting) (num : ℕ) (gen gen' : List (List α))
    (ips outs : List (Point α)) (hg : ∀ b ∈ gen, b ≠ []) (hg' : ∀ b ∈ gen', b ≠ [])
    (hsame : gen.flatten.take num = gen'.flatten.take num) (hS : gen.flatten.take num ≠ [])
    (hp : ips ≠ [] ∨ outs ≠ []) (hz : ∀ p ∈ ips ++ outs, NonzeroAt (gen.flatten.take num) p)
    (hw : UsableWeights w (gen.flatten.take num) ips) :
    metric w num gen ips outs = metric w num gen' ips outs := by
  rw [C104_value_partial w num gen ips outs hg hS hp hz hw, hsame,
    C104_value_partial w num gen' ips outs hg' (hsame ▸ hS) hp (hsame ▸ hz) (hsame ▸ hw)]

/-! ### Distances -/

theorem sum_nonneg' {xs : List ℝ} (h : ∀ x ∈ xs, 0 ≤ x) : 0 ≤ xs.sum := List.sum_nonneg h

theorem mean_nonneg {xs : List ℝ} (h : ∀ x ∈ xs, 0 ≤ x) : 0 ≤ mean xs :=
  div_nonneg (List.sum_nonneg h) (Nat.cast_nonneg _)

theorem eps_pos : (0 : ℝ) < eps := by unfold eps; norm_num

theorem zipWith_mem {β : Type} {f : ℝ → ℝ → β} : ∀ {x y : List ℝ} {v : β}, v ∈ List.zipWith f x y →
    ∃ a b, (a, b) ∈ x.zip y ∧ v = f a b := by
  intro x
  induction x with
  | nil => intro y v h; simp at h
  | cons a x ih =>
    intro y v h
    cases y with
    | nil => simp at h
    | cons b y =>
      rw [List.zipWith_cons_cons, List.mem_cons] at h
      rcases h with h | h
      · exact ⟨a, b, by simp, h⟩
      · obtain ⟨a', b', h1, h2⟩ := ih h
        exact ⟨a', b', by simp [h1], h2⟩

theorem norm_den_pos (x : List ℝ) : 0 < mean (x.map fun a => a ^ 2) + eps := by
  have : 0 ≤ mean (x.map fun a => a ^ 2) := by
    apply mean_nonneg
    intro v hv
    obtain ⟨a, -, e⟩ := List.mem_map.mp hv
    rw [← e]; positivity
  linarith [eps_pos]

/-- **C105.** The normalised squared error of two samples of the same size is never negative, and is
zero exactly if they are equal. -/
theorem C105_nmse (x y : List ℝ) (h : x.length = y.length) :
    0 ≤ nmse x y ∧ (nmse x y = 0 ↔ x = y) := by
  have hnn : ∀ v ∈ List.zipWith (fun a b => (a - b) ^ 2) x y, (0 : ℝ) ≤ v := by
    intro v hv
    obtain ⟨a, b, -, e⟩ := zipWith_mem hv
    rw [e]; positivity
  refine ⟨div_nonneg (mean_nonneg hnn) (norm_den_pos x).le, ?_⟩
  unfold nmse mseErr
  rw [div_eq_zero_iff]
  constructor
  · rintro (h0 | h0)
    · unfold mean at h0
      rw [div_eq_zero_iff] at h0
      rcases h0 with h0 | h0
      · have hz := sum_zero_nonneg hnn h0
        clear h0 hnn
        induction x generalizing y with
        | nil => cases y with
          | nil => rfl
          | cons b y => simp at h
        | cons a x ih => cases y with
          | nil => simp at h
          | cons b y =>
            have h1 := hz ((a - b) ^ 2) (by simp)
            have h2 := ih y (by simpa using h) (fun v hv => hz v (by simp [hv]))
            have : a = b := by
              have := pow_eq_zero_iff (two_ne_zero) |>.mp h1
              linarith
            rw [this, h2]
      · have : (List.zipWith (fun a b => (a - b) ^ 2) x y).length = 0 := by exact_mod_cast h0
        rw [List.length_zipWith, h, min_self] at this
        have hx : x = [] := List.length_eq_zero_iff.mp (h ▸ this)
        have hy : y = [] := List.length_eq_zero_iff.mp this
        rw [hx, hy]
    · exact absurd h0 (norm_den_pos x).ne'
  · intro e
    left
    rw [e]
    unfold mean
    have : (List.zipWith (fun a b => (a - b) ^ 2) y y).sum = (0 : ℝ) := by
      apply List.sum_eq_zero
      intro v hv
      rw [List.zipWith_self] at hv
      obtain ⟨a, -, e⟩ := List.mem_map.mp hv
      rw [← e]; ring
    rw [this, zero_div]

theorem inner_bound : ∀ (x y : List ℝ),
    |(List.zipWith (fun a b => a * b) x y).sum| ≤ norm2 x * norm2 y := by
  intro x y
  unfold norm2
  rw [← Real.sqrt_mul (List.sum_nonneg (by
    intro v hv; obtain ⟨a, -, e⟩ := List.mem_map.mp hv; rw [← e]; positivity))]
  apply Real.abs_le_sqrt
  -- Cauchy-Schwarz by induction on the lists
  have hsum : ∀ z : List ℝ, 0 ≤ (z.map fun a => |a| ^ 2).sum := by
    intro z
    apply List.sum_nonneg
    intro v hv; obtain ⟨a, -, e⟩ := List.mem_map.mp hv; rw [← e]; positivity
  induction x generalizing y with
  | nil => simp
  | cons a x ih =>
    cases y with
    | nil => simp
    | cons b y =>
      have h := ih y
      rw [List.zipWith_cons_cons, List.sum_cons, List.map_cons, List.sum_cons, List.map_cons, List.sum_cons,
        sq_abs, sq_abs]
      have hx := hsum x
      have hy := hsum y
      generalize (List.map (fun a => |a| ^ 2) x).sum = X at h hx ⊢
      generalize (List.map (fun a => |a| ^ 2) y).sum = Y at h hy ⊢
      generalize (List.zipWith (fun a b => a * b) x y).sum = Z at h ⊢
      -- (ab + Z)² ≤ (a² + X)(b² + Y), from Z² ≤ XY
      have key : 2 * (a * b) * Z ≤ a ^ 2 * Y + b ^ 2 * X := by
        have h1 : |a * b * Z| ≤ |a| * |b| * (Real.sqrt X * Real.sqrt Y) := by
          rw [abs_mul, abs_mul]
          apply mul_le_mul_of_nonneg_left _ (by positivity)
          rw [← Real.sqrt_mul hx]
          exact Real.abs_le_sqrt h
        have h2 := le_abs_self (a * b * Z)
        have h3 : 2 * (|a| * Real.sqrt Y) * (|b| * Real.sqrt X) ≤
            (|a| * Real.sqrt Y) ^ 2 + (|b| * Real.sqrt X) ^ 2 := two_mul_le_add_sq _ _
        rw [mul_pow, mul_pow, sq_abs, sq_abs, Real.sq_sqrt hx, Real.sq_sqrt hy] at h3
        nlinarith
      nlinarith

/-- **C105.** The cosine distance of two samples is between 0 and 1. -/
theorem C105_cosine (x y : List ℝ) : 0 ≤ cosine x y ∧ cosine x y ≤ 1 := by
  refine ⟨le_max_right _ _, max_le ?_ zero_le_one⟩
  have h := inner_bound x y
  have hd : 0 < norm2 x * norm2 y + eps := by
    have : 0 ≤ norm2 x * norm2 y := mul_nonneg (Real.sqrt_nonneg _) (Real.sqrt_nonneg _)
    linarith [eps_pos]
  have h1 : -1 ≤ (List.zipWith (fun a b => a * b) x y).sum / (norm2 x * norm2 y + eps) := by
    rw [le_div_iff₀ hd]
    have := neg_abs_le (List.zipWith (fun a b => a * b) x y).sum
    linarith [eps_pos]
  linarith

theorem norm2_sq (x : List ℝ) : norm2 x * norm2 x = (x.map fun a => a ^ 2).sum := by
  unfold norm2
  rw [Real.mul_self_sqrt]
  · simp [sq_abs]
  · apply List.sum_nonneg
    intro v hv; obtain ⟨a, -, e⟩ := List.mem_map.mp hv; rw [← e]; positivity

/-- **C105.** The cosine distance of a sample with itself is `e / (2 (‖x‖² + e))` with `e = 10⁻⁸`: below `e / 2`
divided by the squared norm, but not zero. -/
theorem C105_cosine_self (x : List ℝ) :
    cosine x x = (1 / 10 ^ 8) / (2 * ((x.map fun a => a ^ 2).sum + 1 / 10 ^ 8)) := by
  rw [show (1 / 10 ^ 8 : ℝ) = eps by unfold eps; norm_num]
  unfold cosine
  have hnn : 0 ≤ (x.map fun a => a ^ 2).sum := by
    apply List.sum_nonneg
    intro v hv; obtain ⟨a, -, e⟩ := List.mem_map.mp hv; rw [← e]; positivity
  have he : (List.zipWith (fun a b => a * b) x x).sum = (x.map fun a => a ^ 2).sum := by
    rw [List.zipWith_self]
    congr 1
    apply List.map_congr_left
    intro a _; ring
  rw [he, norm2_sq]
  have hd : 0 < (x.map fun a => a ^ 2).sum + eps := by linarith [eps_pos]
  have : (1 - (x.map fun a => a ^ 2).sum / ((x.map fun a => a ^ 2).sum + eps)) / 2 =
      eps / (2 * ((x.map fun a => a ^ 2).sum + eps)) := by
    field_simp
    ring
  rw [this]
  exact max_eq_left (by have := eps_pos; positivity)

theorem klTerm_self (a : ℝ) : klTerm a a = 0 := by
  unfold klTerm
  split
  · rename_i h
    simp [h]
  · rfl

/-- **C105.** The Kullback-Leibler distance of a sample with itself is zero. -/
theorem C105_kl_self (x : Ten) : kl x x = 0 := by
  unfold kl mean
  have : (List.zipWith (fun r s => (List.zipWith klTerm r s).sum) x x).sum = 0 := by
    apply List.sum_eq_zero
    intro v hv
    rw [List.zipWith_self] at hv
    obtain ⟨r, -, e⟩ := List.mem_map.mp hv
    rw [← e]
    apply List.sum_eq_zero
    intro u hu
    rw [List.zipWith_self] at hu
    obtain ⟨a, -, e⟩ := List.mem_map.mp hu
    rw [← e]; exact klTerm_self a
  rw [this, zero_div]

theorem klTerm_ge {p q : ℝ} (hp : 0 ≤ p) (hq : 0 < q) : p - q ≤ klTerm p q := by
  unfold klTerm
  split
  · rename_i h
    rw [if_neg hq.ne']
    have hp' : 0 < p := lt_of_le_of_ne hp (Ne.symm h)
    have h1 := Real.one_sub_inv_le_log_of_pos (div_pos hp' hq)
    have h2 := mul_le_mul_of_nonneg_left h1 hp
    have h3 : p * (1 - (p / q)⁻¹) = p - q := by
      rw [inv_div]; field_simp
    linarith
  · rename_i h
    have : p = 0 := by simpa using h
    rw [this]; linarith

theorem klRow_ge : ∀ (r s : List ℝ), r.length = s.length → (∀ a ∈ r, 0 ≤ a) → (∀ b ∈ s, 0 < b) →
    r.sum - s.sum ≤ (List.zipWith klTerm r s).sum := by
  intro r
  induction r with
  | nil => intro s h; cases s with
    | nil => simp
    | cons b s => simp at h
  | cons a r ih =>
    intro s h hr hs
    cases s with
    | nil => simp at h
    | cons b s =>
      have h1 := ih s (by simpa using h) (fun x hx => hr x (by simp [hx])) (fun x hx => hs x (by simp [hx]))
      have h2 := klTerm_ge (hr a (by simp)) (hs b (by simp))
      simp only [List.sum_cons, List.zipWith_cons_cons]
      linarith

/-- A row is a probability vector. -/
def IsProb (r : List ℝ) : Prop := (∀ a ∈ r, 0 ≤ a) ∧ r.sum = 1

/-- **C105, partial.** The Kullback-Leibler distance of rows of probabilities is not negative if the
quantized probabilities are all positive.  Missing: quantized probabilities that are zero
(`C105_kl_negative_violated`). -/
theorem C105_kl_partial (x y : Ten)
    (h : List.Forall₂ (fun r s => r.length = s.length ∧ IsProb r ∧ IsProb s ∧ ∀ b ∈ s, 0 < b) x y) :
    0 ≤ kl x y := by
  apply mean_nonneg
  induction h with
  | nil => intro v hv; simp at hv
  | cons hrs _ ih =>
    rename_i r s xs ys _
    intro v hv
    rw [List.zipWith_cons_cons, List.mem_cons] at hv
    rcases hv with e | hv
    · rw [e]
      have := klRow_ge r s hrs.1 hrs.2.1.1 hrs.2.2.2
      rw [hrs.2.1.2, hrs.2.2.1.2] at this
      linarith
    · exact ih v hv

/-- **C105 violated.** With a quantized probability that is zero the Kullback-Leibler distance can be
negative (although the documentation promises a value between 0 and 1): the configuration then scores
better than the float model itself. -/
theorem C105_kl_negative_violated : ∃ x y : Ten,
    (∀ r ∈ x, IsProb r) ∧ (∀ s ∈ y, IsProb s) ∧ kl x y < kl x x := by
  have e0 := eps_pos
  have he : eps / 2 < 1 := by unfold eps; norm_num
  refine ⟨[[1 - eps / 2, eps / 2]], [[1, 0]], ?_, ?_, ?_⟩
  · intro r hr
    simp only [List.mem_singleton] at hr
    subst hr
    refine ⟨?_, by simp⟩
    intro a ha
    simp only [List.mem_cons, List.not_mem_nil, or_false] at ha
    rcases ha with h | h <;> rw [h] <;> linarith
  · intro r hr
    simp only [List.mem_singleton] at hr
    subst hr
    refine ⟨?_, by simp⟩
    intro a ha
    simp only [List.mem_cons, List.not_mem_nil, or_false] at ha
    rcases ha with h | h <;> rw [h] <;> norm_num
  · rw [C105_kl_self]
    have h1 : kl [[1 - eps / 2, eps / 2]] [[1, 0]] =
        klTerm (1 - eps / 2) 1 + klTerm (eps / 2) 0 := by
      simp [kl, mean]
    rw [h1]
    unfold klTerm
    have n1 : (1 - eps / 2 : ℝ) ≠ 0 := by linarith
    have n2 : (eps / 2 : ℝ) ≠ 0 := by linarith
    have n3 : ¬ ((1 : ℝ) = 0) := one_ne_zero
    rw [if_pos n1, if_pos n2, if_neg n3, if_pos rfl, div_one]
    have h2 : Real.log (1 - eps / 2) < 0 := Real.log_neg (by linarith) (by linarith)
    have h3 : eps / 2 / eps = 1 / 2 := by field_simp
    rw [h3]
    have h4 : Real.log (1 / 2) < 0 := Real.log_neg (by norm_num) (by norm_num)
    nlinarith [mul_pos e0 (neg_pos.mpr h4), mul_pos (show (0 : ℝ) < 1 - eps / 2 by linarith) (neg_pos.mpr h2)]

/-- **C105 violated.** The Kullback-Leibler distance is not bounded by 1 as documented. -/
theorem C105_kl_bound_violated : ∃ x y : Ten,
    (∀ r ∈ x, IsProb r) ∧ (∀ s ∈ y, IsProb s ∧ ∀ b ∈ s, 0 < b) ∧ 1 < kl x y := by
  refine ⟨[[1, 0]], [[Real.exp (-2), 1 - Real.exp (-2)]], ?_, ?_, ?_⟩
  · intro r hr
    simp only [List.mem_singleton] at hr
    subst hr
    refine ⟨?_, by simp⟩
    intro a ha
    simp only [List.mem_cons, List.not_mem_nil, or_false] at ha
    rcases ha with h | h <;> rw [h] <;> norm_num
  · intro r hr
    simp only [List.mem_singleton] at hr
    subst hr
    have h1 := Real.exp_pos (-2)
    have h2 : Real.exp (-2) < 1 := by
      have := Real.exp_lt_exp.mpr (show (-2 : ℝ) < 0 by norm_num)
      rwa [Real.exp_zero] at this
    refine ⟨⟨?_, by simp⟩, ?_⟩
    · intro a ha
      simp only [List.mem_cons, List.not_mem_nil, or_false] at ha
      rcases ha with h | h <;> rw [h] <;> linarith
    · intro a ha
      simp only [List.mem_cons, List.not_mem_nil, or_false] at ha
      rcases ha with h | h <;> rw [h] <;> linarith
  · have : kl [[1, 0]] [[Real.exp (-2), 1 - Real.exp (-2)]] = 2 := by
      simp [kl, mean, klTerm, Real.exp_ne_zero]
    rw [this]; norm_num

/-! ### The metric -/

/-- Hessian scores are not negative and sigma is positive. -/
def NonnegWeights : Weighting → Prop
  | .hessian ws => ∀ w ∈ ws, 0 ≤ w
  | .exp sigma => 0 < sigma
  | _ => True

/-- A point whose distance is never negative: squared error or cosine. -/
def PlainFn (p : Point α) : Prop := p.fn = .nmse ∨ p.fn = .cosine

theorem nmse_nonneg (x y : List ℝ) : 0 ≤ nmse x y := by
  apply div_nonneg (mean_nonneg _) (norm_den_pos x).le
  intro v hv
  obtain ⟨a, b, -, e⟩ := zipWith_mem hv
  rw [e]; positivity

theorem meanAt_nonneg {S : List α} {p : Point α} (h : PlainFn p) : 0 ≤ meanAt S p := by
  apply div_nonneg _ (Nat.cast_nonneg _)
  apply List.sum_nonneg
  intro v hv
  obtain ⟨s, -, e⟩ := List.mem_map.mp hv
  rw [← e]
  rcases h with h | h <;> rw [h]
  · exact nmse_nonneg _ _
  · exact (C105_cosine _ _).1

theorem batch_nonneg {f : DistFn} (hf : f = .nmse ∨ f = .cosine) (b : List (Ten × Ten)) :
    match f.batch b with
    | .num v => 0 ≤ v
    | .vec vs => ∀ v ∈ vs, 0 ≤ v := by
  have hs : ∀ v ∈ b.map (fun p => f.sample p.1 p.2), 0 ≤ v := by
    intro v hv
    obtain ⟨p, -, e⟩ := List.mem_map.mp hv
    rw [← e]
    rcases hf with h | h <;> rw [h]
    · exact nmse_nonneg _ _
    · exact (C105_cosine _ _).1
  rcases hf with h | h
  · subst h; simpa [DistFn.batch] using hs
  · subst h
    unfold DistFn.batch
    simp only
    split
    · rename_i h
      split at h
      · cases h; exact zero_le_one
      · cases h
    · rename_i h
      split at h
      · cases h
      · cases h; exact hs

/-- The entries of a value. -/
def Dist.Nonneg : Dist → Prop
  | .num v => 0 ≤ v
  | .vec vs => ∀ v ∈ vs, 0 ≤ v

theorem nums_nonneg : ∀ {ds : List Dist} {vs : List ℝ}, (∀ d ∈ ds, d.Nonneg) → nums ds = some vs →
    ∀ v ∈ vs, 0 ≤ v := by
  intro ds
  induction ds with
  | nil => intro vs _ h; simp [nums] at h; subst h; simp
  | cons d ds ih =>
    intro vs hd h
    cases d with
    | vec u => simp [nums] at h
    | num u =>
      simp only [nums, Option.map_eq_some_iff] at h
      obtain ⟨ws, h1, h2⟩ := h
      subst h2
      intro v hv
      rcases List.mem_cons.mp hv with e | hv
      · rw [e]; exact hd (.num u) (by simp)
      · exact ih (fun d h => hd d (by simp [h])) h1 v hv

theorem vecs_nonneg {n : ℕ} : ∀ {ds : List Dist} {vs : List (List ℝ)}, (∀ d ∈ ds, d.Nonneg) →
    vecs n ds = some vs → ∀ r ∈ vs, ∀ v ∈ r, 0 ≤ v := by
  intro ds
  induction ds with
  | nil => intro vs _ h; simp [vecs] at h; subst h; simp
  | cons d ds ih =>
    intro vs hd h
    cases d with
    | num u => simp [vecs] at h
    | vec u =>
      simp only [vecs] at h
      split at h
      · simp only [Option.map_eq_some_iff] at h
        obtain ⟨ws, h1, h2⟩ := h
        subst h2
        intro r hr
        rcases List.mem_cons.mp hr with e | hr
        · rw [e]; exact hd (.vec u) (by simp)
        · exact ih (fun d h => hd d (by simp [h])) h1 r hr
      · cases h

theorem asMatrix_nonneg {ds : List Dist} {m : List (List ℝ)} (hd : ∀ d ∈ ds, d.Nonneg)
    (h : asMatrix ds = some m) : ∀ r ∈ m, ∀ v ∈ r, 0 ≤ v := by
  unfold asMatrix at h
  split at h
  · cases h; simp
  · rw [Option.map_eq_some_iff] at h
    obtain ⟨vs, h1, h2⟩ := h
    subst h2
    intro r hr v hv
    obtain ⟨u, hu, e⟩ := List.mem_map.mp hr
    rw [← e, List.mem_singleton] at hv
    rw [hv]
    exact nums_nonneg hd h1 u hu
  · exact vecs_nonneg hd h

theorem mapM_forall {β γ : Type} {f : β → Option γ} {P : γ → Prop} : ∀ {l : List β} {r : List γ},
    l.mapM f = some r → (∀ x ∈ l, ∀ y, f x = some y → P y) → ∀ y ∈ r, P y := by
  intro l
  induction l with
  | nil => intro r h _; simp at h; subst h; simp
  | cons a l ih =>
    intro r h hP
    rw [List.mapM_cons] at h
    simp only [Option.bind_eq_bind, Option.bind_eq_some_iff, Option.pure_def, Option.some.injEq] at h
    obtain ⟨y, hy, ys, hys, e⟩ := h
    subst e
    intro z hz
    rcases List.mem_cons.mp hz with e | hz
    · rw [e]; exact hP a (by simp) y hy
    · exact ih hys (fun x hx => hP x (by simp [hx])) z hz

theorem distances_nonneg {ps : List (Point α)} (h : ∀ p ∈ ps, PlainFn p) {bs : List (List α)}
    {m : List (List ℝ)} (hm : distances ps bs = some m) : ∀ r ∈ m, ∀ v ∈ r, 0 ≤ v := by
  unfold distances at hm
  rw [Option.bind_eq_some_iff] at hm
  obtain ⟨ms, h1, h2⟩ := hm
  have hms := mapM_forall (P := fun m => ∀ r ∈ m, ∀ v ∈ r, 0 ≤ v) h1 (by
    intro b _ m hbm
    apply asMatrix_nonneg _ hbm
    intro d hd
    obtain ⟨p, hp, e⟩ := List.mem_map.mp hd
    rw [← e]
    have := batch_nonneg (h p hp) (b.map fun s => (p.ref s, p.mp s))
    unfold Dist.Nonneg
    exact this)
  unfold hconcat at h2
  split at h2
  · cases h2
  · cases h2
    intro r hr v hv
    obtain ⟨i, -, e⟩ := List.mem_map.mp hr
    rw [← e, List.mem_flatMap] at hv
    obtain ⟨mm, hmm, hv⟩ := hv
    rw [List.getD_eq_getElem?_getD] at hv
    rcases hg : mm[i]? with _ | row
    · rw [hg] at hv; simp at hv
    · rw [hg] at hv
      exact hms mm hmm row (List.mem_of_getElem? hg) v (by simpa using hv)

theorem average_nonneg {xs ws : List ℝ} {v : ℝ} (hx : ∀ x ∈ xs, 0 ≤ x) (hw : ∀ w ∈ ws, 0 ≤ w)
    (h : average xs ws = some v) : 0 ≤ v := by
  unfold average at h
  split at h
  · cases h
    apply div_nonneg _ (List.sum_nonneg hw)
    apply List.sum_nonneg
    intro v hv
    obtain ⟨a, b, h, e⟩ := zipWith_mem hv
    rw [e]
    exact mul_nonneg (hx a (List.of_mem_zip h).1) (hw b (List.of_mem_zip h).2)
  · cases h

/-- **C105.** Without Kullback-Leibler and user-defined points the metric is never negative, whatever
the batches and outputs are (also where `C104_value_partial` does not apply). -/
theorem C105_metric_nonneg (w : Weighting) (num : ℕ) (gen : List (List α)) (ips outs : List (Point α))
    (h : ∀ p ∈ ips ++ outs, PlainFn p) (hw : NonnegWeights w) (v : ℝ)
    (hv : metric w num gen ips outs = some v) : 0 ≤ v := by
  unfold metric at hv
  simp only [Option.bind_eq_some_iff] at hv
  obtain ⟨a, ha, b, hb, hv⟩ := hv
  have hna := distances_nonneg (fun p hp => h p (by simp [hp])) ha
  have hnb := distances_nonneg (fun p hp => h p (by simp [hp])) hb
  have hfl : ∀ {m : List (List ℝ)}, (∀ r ∈ m, ∀ v ∈ r, 0 ≤ v) → 0 ≤ mean m.flatten := by
    intro m hm
    apply mean_nonneg
    intro x hx
    obtain ⟨r, hr, hx⟩ := List.mem_flatten.mp hx
    exact hm r hr x hx
  have hmeans : ∀ x ∈ a.map mean, 0 ≤ x := by
    intro x hx
    obtain ⟨r, hr, e⟩ := List.mem_map.mp hx
    rw [← e]; exact mean_nonneg (hna r hr)
  unfold mpMeasure at hv
  split at hv
  · cases hv
  · rw [Option.map_eq_some_iff] at hv
    obtain ⟨x, hx, e⟩ := hv
    rw [← e]
    apply add_nonneg
    · split at hx
      · cases w with
        | avg => simp only [iptsMeasure, Option.some.injEq] at hx; rw [← hx]; exact hfl hna
        | lastLayer =>
          simp only [iptsMeasure, Option.map_eq_some_iff] at hx
          obtain ⟨r, hr, e⟩ := hx
          rw [← e]; exact mean_nonneg (hna r (List.mem_of_getLast? hr))
        | hessian ws => exact average_nonneg hmeans hw hx
        | exp sigma =>
          simp only [iptsMeasure] at hx
          split at hx
          · apply average_nonneg hmeans _ hx
            intro y hy
            obtain ⟨z, hz, e⟩ := List.mem_map.mp hy
            rw [← e]; exact one_sub_exp_nonneg hw (hmeans z hz)
          · cases hx; exact le_refl 0
      · cases hx; exact le_refl 0
    · split
      · exact hfl hnb
      · exact le_refl 0

theorem meanAt_zero {S : List α} {p : Point α} (h : p.fn = .nmse ∨ p.fn = .kl)
    (hs : ∀ s ∈ S, p.mp s = p.ref s) : meanAt S p = 0 := by
  unfold meanAt
  have : (S.map fun s => p.fn.sample (p.ref s) (p.mp s)).sum = 0 := by
    apply List.sum_eq_zero
    intro v hv
    obtain ⟨s, hm, e⟩ := List.mem_map.mp hv
    rw [← e, hs s hm]
    rcases h with h | h <;> rw [h]
    · exact ((C105_nmse _ _ rfl).2).mpr rfl
    · exact C105_kl_self _
  rw [this, zero_div]

/-- **C105, partial.** If the quantized model computes the same as the float model on the images, the
metric is zero.  Missing: points compared by cosine (`C105_cosine_self`, `C104_zero_violated`). -/
theorem C105_metric_zero_partial (w : Weighting) (num : ℕ) (gen : List (List α)) (ips outs : List (Point α))
    (hgen : ∀ b ∈ gen, b ≠ []) (hS : gen.flatten.take num ≠ []) (hp : ips ≠ [] ∨ outs ≠ [])
    (hf : ∀ p ∈ ips ++ outs, p.fn = .nmse ∨ p.fn = .kl)
    (hsame : ∀ p ∈ ips ++ outs, ∀ s ∈ gen.flatten.take num, p.mp s = p.ref s)
    (hw : UsableWeights w (gen.flatten.take num) ips) : metric w num gen ips outs = some 0 := by
  rw [C104_value_partial w num gen ips outs hgen hS hp ?_ hw]
  · congr 1
    have hz : ∀ p ∈ ips ++ outs, meanAt (gen.flatten.take num) p = 0 := fun p h =>
      meanAt_zero (hf p h) (hsame p h)
    unfold metricSpec
    have h1 : ips.map (meanAt (gen.flatten.take num)) = ips.map fun _ => (0 : ℝ) :=
      List.map_congr_left fun p h => hz p (by simp [h])
    have h2 : outs.map (meanAt (gen.flatten.take num)) = outs.map fun _ => (0 : ℝ) :=
      List.map_congr_left fun p h => hz p (by simp [h])
    rw [h1, h2]
    have h3 : (outs.map fun _ => (0 : ℝ)).sum = 0 := by simp
    have hzip : ∀ (ws : List ℝ) (l : List (Point α)),
        (List.zipWith (fun w x => w * x) ws (l.map fun _ => (0 : ℝ))).sum = 0 := by
      intro ws l
      apply List.sum_eq_zero
      intro v hv
      obtain ⟨a, b, h, e⟩ := zipWith_mem hv
      have := (List.of_mem_zip h).2
      obtain ⟨_, _, e'⟩ := List.mem_map.mp this
      rw [e, ← e', mul_zero]
    have h4 : combined w (ips.map fun _ => (0 : ℝ)) = 0 := by
      cases w with
      | avg => simp [combined]
      | lastLayer =>
        simp only [combined, List.getLastD_eq_getLast?, List.getLast?_map]
        rcases ips.getLast? with _ | x <;> simp
      | hessian ws => simp only [combined, weightedMean, hzip, zero_div]
      | exp sigma => simp only [combined, weightedMean, hzip, zero_div]
    rw [h3, h4]
    simp
  · intro p h hc
    rcases hf p h with h' | h' <;> rw [h'] at hc <;> cases hc

/-- A point with the same output in both models. -/
def samePoint (f : DistFn) (out : ℕ → Ten) : Point ℕ := ⟨f, out, out⟩

/-- The output of a point for the examples: image 0 gives zero. -/
def exOut (s : ℕ) : Ten := if s = 0 then [[0]] else [[1]]

theorem zero_vec : isZero [[0]] := by intro a ha; simpa using ha

theorem not_zero_vec : ¬ isZero [[1]] := by
  intro h
  have := h 1 (by simp)
  norm_num at this

/-- The hypotheses of `C104_value_partial` and `C105_metric_zero_partial` are met. -/
example : (∀ b ∈ [[1, 2], [3, 4]], b ≠ ([] : List ℕ)) ∧ ([[1, 2], [3, 4]].flatten.take 3) ≠ ([] : List ℕ) ∧
    NonzeroAt ([[1, 2], [3, 4]].flatten.take 3) (samePoint .cosine exOut) ∧
    UsableWeights (.hessian [3]) ([[1, 2], [3, 4]].flatten.take 3) [samePoint .nmse exOut] ∧
    UsableWeights (.exp (1 / 10)) ([[1, 2], [3, 4]].flatten.take 3) [samePoint .nmse exOut] := by
  refine ⟨by decide, by decide, ?_, ⟨rfl, by norm_num⟩, by norm_num, ?_⟩
  · intro _ s hs h
    have : s ≠ 0 := by
      simp at hs; omega
    apply not_zero_vec
    have h' := h.1
    simpa [samePoint, exOut, this] using h'
  · intro p hp
    simp only [List.mem_singleton] at hp
    rw [hp]
    exact meanAt_nonneg (Or.inl rfl)

/-- **C104 and C105 violated for zero outputs.** A fully connected layer whose output is zero in both
models for all images of a batch counts with distance 1, the largest possible, although nothing
differs. -/
theorem C104_zero_violated :
    metric .avg 1 [[0]] [samePoint .cosine exOut] [] = some 1 := by
  have hb : (DistFn.cosine).batch [(exOut 0, exOut 0)] = .num 1 := by
    unfold DistFn.batch
    simp only []
    rw [if_pos]
    intro p hp
    simp only [List.mem_singleton] at hp
    rw [hp]
    exact ⟨by simpa [exOut] using zero_vec, by simpa [exOut] using zero_vec⟩
  have hd : pointsDistance [samePoint .cosine exOut] [0] = some [[1]] := by
    unfold pointsDistance
    simp only [List.map_cons, List.map_nil, samePoint, hb]
    rfl
  have hi : images 1 [[0]] = [[0]] := by decide
  have h1 : distances [samePoint .cosine exOut] (images 1 [[0]]) = some [[1]] := by
    unfold distances
    rw [hi, List.mapM_cons, hd, List.mapM_nil]
    rfl
  have h2 : distances ([] : List (Point ℕ)) (images 1 [[0]]) = some [] := by
    unfold distances
    rw [hi]
    rfl
  unfold metric
  rw [h1, h2]
  simp [mpMeasure, iptsMeasure, mean]

/-- **C104 violated for zero outputs.** If another interest point is compared by the squared error, the
metric raises instead. -/
theorem C104_zero_raises_violated :
    metric .avg 1 [[0]] [samePoint .cosine exOut, samePoint .nmse exOut] [] = none := by
  have hb : (DistFn.cosine).batch [(exOut 0, exOut 0)] = .num 1 := by
    unfold DistFn.batch
    simp only []
    rw [if_pos]
    intro p hp
    simp only [List.mem_singleton] at hp
    rw [hp]
    exact ⟨by simpa [exOut] using zero_vec, by simpa [exOut] using zero_vec⟩
  have hd : pointsDistance [samePoint .cosine exOut, samePoint .nmse exOut] [0] = none := by
    unfold pointsDistance
    simp only [List.map_cons, List.map_nil, samePoint, hb]
    rfl
  have hi : images 1 [[0]] = [[0]] := by decide
  have h1 : distances [samePoint .cosine exOut, samePoint .nmse exOut] (images 1 [[0]]) = none := by
    unfold distances
    rw [hi, List.mapM_cons, hd]
    rfl
  unfold metric
  rw [h1]
  rfl

/-- **C104 violated for zero outputs.** The value depends on how the images are cut into batches. -/
theorem C104_zero_batches_violated :
    metric .avg 2 [[0], [1]] [samePoint .cosine exOut] [] ≠
      metric .avg 2 [[0, 1]] [samePoint .cosine exOut] [] := by
  have e0 : exOut 0 = [[0]] := by simp [exOut]
  have e1 : exOut 1 = [[1]] := by simp [exOut]
  have hz : (DistFn.cosine).batch [(exOut 0, exOut 0)] = .num 1 := by
    unfold DistFn.batch
    simp only []
    rw [if_pos]
    intro p hp
    simp only [List.mem_singleton] at hp
    rw [hp, e0]
    exact ⟨zero_vec, zero_vec⟩
  have ho : (DistFn.cosine).batch [(exOut 1, exOut 1)] = .vec [cosine [1] [1]] := by
    unfold DistFn.batch
    simp only []
    rw [if_neg]
    · simp [DistFn.sample, e1]
    · intro h
      have := (h (exOut 1, exOut 1) (by simp)).1
      rw [e1] at this
      exact not_zero_vec this
  have hzo : (DistFn.cosine).batch [(exOut 0, exOut 0), (exOut 1, exOut 1)] =
      .vec [cosine [0] [0], cosine [1] [1]] := by
    unfold DistFn.batch
    simp only []
    rw [if_neg]
    · simp [DistFn.sample, e0, e1]
    · intro h
      have := (h (exOut 1, exOut 1) (by simp)).1
      rw [e1] at this
      exact not_zero_vec this
  have hd0 : pointsDistance [samePoint .cosine exOut] [0] = some [[1]] := by
    unfold pointsDistance
    simp only [List.map_cons, List.map_nil, samePoint, hz]
    rfl
  have hd1 : pointsDistance [samePoint .cosine exOut] [1] = some [[cosine [1] [1]]] := by
    unfold pointsDistance
    simp only [List.map_cons, List.map_nil, samePoint, ho]
    simp [asMatrix, vecs]
  have hd2 : pointsDistance [samePoint .cosine exOut] [0, 1] = some [[cosine [0] [0], cosine [1] [1]]] := by
    unfold pointsDistance
    simp only [List.map_cons, List.map_nil, samePoint, hzo]
    simp [asMatrix, vecs]
  have hi1 : images 2 [[0], [1]] = [[0], [1]] := by decide
  have hi2 : images 2 [[0, 1]] = [[0, 1]] := by decide
  have h1 : distances [samePoint .cosine exOut] (images 2 [[0], [1]]) = some [[1, cosine [1] [1]]] := by
    unfold distances
    rw [hi1, List.mapM_cons, hd0, List.mapM_cons, hd1]
    rfl
  have h2 : distances [samePoint .cosine exOut] (images 2 [[0, 1]]) =
      some [[cosine [0] [0], cosine [1] [1]]] := by
    unfold distances
    rw [hi2, List.mapM_cons, hd2]
    rfl
  have h3 : distances ([] : List (Point ℕ)) (images 2 [[0], [1]]) = some [] := by
    unfold distances; rw [hi1]; rfl
  have h4 : distances ([] : List (Point ℕ)) (images 2 [[0, 1]]) = some [] := by
    unfold distances; rw [hi2]; rfl
  unfold metric
  rw [h1, h2, h3, h4]
  have hc : cosine [0] [0] = 1 / 2 := by
    rw [C105_cosine_self]
    have := eps_pos
    simp
    field_simp
  simp [mpMeasure, iptsMeasure, mean, hc]

end

end MCT.Sens
