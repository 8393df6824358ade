import Verif.Train.Schedule
import Mathlib.Analysis.SpecialFunctions.Pow.Real
import Mathlib.Algebra.BigOperators.Group.List.Basic
import Mathlib.Algebra.BigOperators.Ring.List
import Mathlib.Tactic.IntervalCases
import Mathlib.Algebra.Order.BigOperators.Group.List

/-!
# C142: the rounding regularization of GPTQ

Model of `gptq/pytorch/quantizer/soft_rounding/soft_quantizer_reg.py` and
`gptq/keras/quantizer/soft_rounding/soft_quantizer_reg.py`, as they are called by `compute_gradients` of both
`gptq_training.py` with the weights of `_prepare_train_dataloader_sla` and `_prepare_train_dataloader_for_non_sla`.
-/

namespace MCT.Train

/-! ### Model -/

/-- The framework. -/
inductive RegFw where
  | keras
  | pytorch

/-- `soft_loss`, soft_quantizer_reg.py 66 (PyTorch), 72 (Keras), on the soft targets of a kernel. -/
noncomputable def softLoss (b : ℝ) (ts : List ℝ) : ℝ := (ts.map fun t => 1 - (|t - 1 / 2| * 2) ^ b).sum

/-- `SoftQuantizerRegularization.__call__`, soft_quantizer_reg.py 40-72 (PyTorch), 41-80 (Keras), with exponent `b`:
`layers` are the soft targets of the wrapped layers in the order of the model, `ws` are the weights.  `none` is an
exception (another number of weights; the maximum of no weights in PyTorch) or a result that is no number (division by a
maximum of zero).  In Keras the maximum of no weights is `-inf`, and the result zero. -/
noncomputable def regTerm (fw : RegFw) (b factor : ℝ) (ws : List ℝ) (layers : List (List ℝ)) : Option ℝ :=
  if ws.length ≠ layers.length then none
  else match ws.max? with
    | none => match fw with
      | .keras => some 0
      | .pytorch => none
    | some m =>
      if m = 0 then none
      else some (factor * ((List.zipWith (fun w ts => w * softLoss b ts) ws layers).sum / m))

/-- The regularization over the steps of the training, from the value `k` of the counter (`count_iter`, 36 and 71 in
PyTorch, 38 and 78 in Keras). -/
noncomputable def regRun (fw : RegFw) (a : Anneal ℝ) (factor : ℝ) :
    ℕ → List (List ℝ × List (List ℝ)) → List (Option ℝ)
  | _, [] => []
  | k, (ws, layers) :: steps => regTerm fw (a.at k) factor ws layers :: regRun fw a factor (k + 1) steps

/-- The regularization of a model: the weights are those of the compare points, in the order of `get_compare_points`
(gptq/common/gptq_graph.py 24-51: a topological order of the graph, `os`), and the layers come in the order `ls` of the
model (`model.modules()` in PyTorch: the order in which the builder makes them, which is the same; `model.layers` in
Keras). -/
noncomputable def modelReg (fw : RegFw) (b factor : ℝ) (score : ℕ → ℝ) (targets : ℕ → List ℝ) (os ls : List ℕ) :
    Option ℝ := regTerm fw b factor (os.map score) (ls.map targets)

/-! ### Specification -/

/-- The regularization of the layers, each weighted by its own score relative to the largest one. -/
noncomputable def regSpec (b factor : ℝ) (score : ℕ → ℝ) (targets : ℕ → List ℝ) (os : List ℕ) (m : ℝ) : ℝ :=
  factor * (os.map fun n => score n / m * ((targets n).map fun t => 1 - |2 * t - 1| ^ b).sum).sum

/-- A number is the largest of a list. -/
def IsMax (xs : List ℝ) (m : ℝ) : Prop := m ∈ xs ∧ ∀ x ∈ xs, x ≤ m

/-- The generation of a node of a directed graph (`networkx.topological_sort` lists the generations one after the
other): the length of a longest path to it. -/
def IsGeneration (edges : List (ℕ × ℕ)) (gen : ℕ → ℕ) : Prop :=
  ∀ v, gen v = ((edges.filter fun e => e.2 = v).map fun e => gen e.1 + 1).foldr max 0

/-- The depth of a node (Keras lists the layers of a functional model from the largest depth to the smallest): the
length of a longest path from it. -/
def IsDepth (edges : List (ℕ × ℕ)) (depth : ℕ → ℕ) : Prop :=
  ∀ v, depth v = ((edges.filter fun e => e.1 = v).map fun e => depth e.2 + 1).foldr max 0

/-! ### Proofs -/

theorem softLoss_eq (b : ℝ) (ts : List ℝ) : softLoss b ts = (ts.map fun t => 1 - |2 * t - 1| ^ b).sum := by
  unfold softLoss
  congr 1
  refine List.map_congr_left fun t _ => ?_
  have : |t - 1 / 2| * 2 = |2 * t - 1| := by
    rw [show (2 : ℝ) * t - 1 = (t - 1 / 2) * 2 by ring, abs_mul, abs_two]
  rw [this]

theorem isMax_of_max? {xs : List ℝ} {m : ℝ} (h : xs.max? = some m) : IsMax xs m := by
  rw [List.max?_eq_some_iff] at h
  exact h

theorem max?_of_isMax {xs : List ℝ} {m : ℝ} (h : IsMax xs m) : xs.max? = some m := by
  rw [List.max?_eq_some_iff]
  exact h

theorem regTerm_of_isMax {fw : RegFw} {b factor : ℝ} {ws : List ℝ} {layers : List (List ℝ)} {m : ℝ}
    (hl : ws.length = layers.length) (hm : IsMax ws m) (h0 : m ≠ 0) : regTerm fw b factor ws layers =
      some (factor * ((List.zipWith (fun w ts => w * softLoss b ts) ws layers).sum / m)) := by
  unfold regTerm
  rw [if_neg (not_not.mpr hl), max?_of_isMax hm]
  simp only
  rw [if_neg h0]

theorem regTerm_some {fw : RegFw} {b factor : ℝ} {ws : List ℝ} {layers : List (List ℝ)} {r m : ℝ}
    (h : regTerm fw b factor ws layers = some r) (hm : IsMax ws m) : ws.length = layers.length ∧ m ≠ 0 ∧
      r = factor * ((List.zipWith (fun w ts => w * softLoss b ts) ws layers).sum / m) := by
  unfold regTerm at h
  split_ifs at h with hl
  rw [max?_of_isMax hm] at h
  simp only at h
  split_ifs at h with h0
  cases h
  exact ⟨not_not.mp hl, h0, rfl⟩

theorem zipWith_map_same (f : ℝ → List ℝ → ℝ) (score : ℕ → ℝ) (targets : ℕ → List ℝ) (os : List ℕ) :
    List.zipWith f (os.map score) (os.map targets) = os.map fun n => f (score n) (targets n) := by
  induction os with
  | nil => rfl
  | cons o os ih => simp [ih]

/-- **C142 (each layer by its own score).**  When the layers of the model come in the order of the compare points, as in
PyTorch, every layer is weighted by its own score relative to the largest score. -/
theorem C142_own_weight (fw : RegFw) (b factor : ℝ) (score : ℕ → ℝ) (targets : ℕ → List ℝ) {os : List ℕ} {m : ℝ}
    (hm : IsMax (os.map score) m) (h0 : m ≠ 0) :
    modelReg fw b factor score targets os os = some (regSpec b factor score targets os m) := by
  unfold modelReg regSpec
  rw [regTerm_of_isMax (by simp) hm h0, zipWith_map_same]
  congr 2
  rw [div_eq_mul_inv, ← List.sum_map_mul_right]
  congr 1
  refine List.map_congr_left fun n _ => ?_
  rw [softLoss_eq]
  ring

/-- **C142 (equal scores).**  Without sample-layer attention all weights are one, and in any order of the layers the
regularization is the sum over all layers. -/
theorem C142_equal_scores (fw : RegFw) (b factor : ℝ) (targets : ℕ → List ℝ) {os ls : List ℕ} (hp : ls.Perm os)
    (hne : os ≠ []) : modelReg fw b factor (fun _ => 1) targets os ls =
      some (factor * (os.map fun n => ((targets n).map fun t => 1 - |2 * t - 1| ^ b).sum).sum) := by
  unfold modelReg
  have hm : IsMax (os.map fun _ => (1 : ℝ)) 1 := by
    obtain ⟨o, os', rfl⟩ := List.exists_cons_of_ne_nil hne
    exact ⟨by simp, fun x hx => by
      obtain ⟨n, -, rfl⟩ := List.mem_map.mp hx
      exact le_refl _⟩
  rw [regTerm_of_isMax (by rw [List.length_map, List.length_map, hp.length_eq]) hm one_ne_zero, div_one]
  have hz : ∀ (l : List ℕ) (ts : List (List ℝ)), l.length = ts.length →
      List.zipWith (fun w ts => w * softLoss b ts) (l.map fun _ => (1 : ℝ)) ts = ts.map (softLoss b) := by
    intro l
    induction l with
    | nil => intro ts h; cases ts <;> simp_all
    | cons o l ih =>
      intro ts h
      cases ts with
      | nil => cases h
      | cons t ts =>
        simp only [List.map_cons, List.zipWith_cons_cons, one_mul]
        rw [ih ts (by simpa using h)]
  rw [hz _ _ (by rw [List.length_map, hp.length_eq]), List.map_map, (hp.map _).sum_eq]
  congr 3
  exact List.map_congr_left fun n _ => softLoss_eq b _

theorem term_bounds {b t : ℝ} (hb : 0 < b) (ht : 0 ≤ t ∧ t ≤ 1) :
    0 ≤ 1 - (|t - 1 / 2| * 2) ^ b ∧ 1 - (|t - 1 / 2| * 2) ^ b ≤ 1 := by
  have h1 : |t - 1 / 2| * 2 ≤ 1 := by
    have : |t - 1 / 2| ≤ 1 / 2 := abs_le.mpr ⟨by linarith [ht.1], by linarith [ht.2]⟩
    linarith
  have h0 : 0 ≤ |t - 1 / 2| * 2 := by positivity
  have := Real.rpow_le_one h0 h1 hb.le
  have := Real.rpow_nonneg h0 b
  constructor <;> linarith

theorem term_zero_iff {b t : ℝ} (hb : 0 < b) (ht : 0 ≤ t ∧ t ≤ 1) :
    1 - (|t - 1 / 2| * 2) ^ b = 0 ↔ t = 0 ∨ t = 1 := by
  have h0 : 0 ≤ |t - 1 / 2| * 2 := by positivity
  constructor
  · intro h
    have h1 : (|t - 1 / 2| * 2) ^ b = 1 := by linarith
    have h3 : |t - 1 / 2| ≤ 1 / 2 := abs_le.mpr ⟨by linarith [ht.1], by linarith [ht.2]⟩
    have h2 : |t - 1 / 2| = 1 / 2 := by
      rcases lt_or_eq_of_le h3 with h | h
      · exact absurd h1 (Real.rpow_lt_one h0 (by linarith) hb).ne
      · exact h
    rcases abs_eq (by norm_num : (0 : ℝ) ≤ 1 / 2) |>.mp h2 with h | h
    · exact Or.inr (by linarith)
    · exact Or.inl (by linarith)
  · rintro (rfl | rfl)
    · rw [show |(0 : ℝ) - 1 / 2| * 2 = 1 by rw [zero_sub, abs_neg, abs_of_pos] <;> norm_num, Real.one_rpow, sub_self]
    · rw [show |(1 : ℝ) - 1 / 2| * 2 = 1 by rw [abs_of_pos] <;> norm_num, Real.one_rpow, sub_self]

theorem softLoss_bounds {b : ℝ} (hb : 0 < b) : ∀ {ts : List ℝ}, (∀ t ∈ ts, 0 ≤ t ∧ t ≤ 1) →
    0 ≤ softLoss b ts ∧ softLoss b ts ≤ ts.length
  | [], _ => by simp [softLoss]
  | t :: ts, h => by
    have h1 := term_bounds hb (h t List.mem_cons_self)
    have h2 := softLoss_bounds hb (fun t' ht' => h t' (List.mem_cons_of_mem _ ht'))
    have : softLoss b (t :: ts) = (1 - (|t - 1 / 2| * 2) ^ b) + softLoss b ts := by simp [softLoss]
    rw [this, List.length_cons]
    push_cast
    constructor <;> linarith

theorem softLoss_zero_iff {b : ℝ} (hb : 0 < b) : ∀ {ts : List ℝ}, (∀ t ∈ ts, 0 ≤ t ∧ t ≤ 1) →
    (softLoss b ts = 0 ↔ ∀ t ∈ ts, t = 0 ∨ t = 1)
  | [], _ => by simp [softLoss]
  | t :: ts, h => by
    have ht := h t List.mem_cons_self
    have hts := fun t' ht' => h t' (List.mem_cons_of_mem t ht')
    have h1 := term_bounds hb ht
    have h2 := softLoss_bounds hb hts
    have ih := softLoss_zero_iff hb hts
    have : softLoss b (t :: ts) = (1 - (|t - 1 / 2| * 2) ^ b) + softLoss b ts := by simp [softLoss]
    rw [this, List.forall_mem_cons, ← term_zero_iff hb ht, ← ih]
    constructor
    · intro he; constructor <;> linarith
    · rintro ⟨e1, e2⟩; rw [e1, e2, add_zero]

/-- **C142 (range).**  The regularization is between zero and the factor times the number of weights. -/
theorem C142_range {fw : RegFw} {b factor m r : ℝ} {ws : List ℝ} {layers : List (List ℝ)} (hb : 0 < b)
    (hf : 0 ≤ factor) (hw : ∀ w ∈ ws, 0 ≤ w) (hm : IsMax ws m) (ht : ∀ ts ∈ layers, ∀ t ∈ ts, 0 ≤ t ∧ t ≤ 1)
    (h : regTerm fw b factor ws layers = some r) :
    0 ≤ r ∧ r ≤ factor * ((layers.map List.length).sum : ℕ) := by
  obtain ⟨hl, h0, rfl⟩ := regTerm_some h hm
  have hmpos : 0 < m := lt_of_le_of_ne (hw m hm.1) (Ne.symm h0)
  have key : ∀ (ws : List ℝ) (layers : List (List ℝ)), ws.length = layers.length → (∀ w ∈ ws, 0 ≤ w) →
      (∀ w ∈ ws, w ≤ m) → (∀ ts ∈ layers, ∀ t ∈ ts, 0 ≤ t ∧ t ≤ 1) →
      0 ≤ (List.zipWith (fun w ts => w * softLoss b ts) ws layers).sum ∧
        (List.zipWith (fun w ts => w * softLoss b ts) ws layers).sum ≤ m * ((layers.map List.length).sum : ℕ) := by
    intro ws
    induction ws with
    | nil => intro layers hl _ _ _; cases layers <;> simp_all
    | cons w ws ih =>
      intro layers hl hw hle ht
      cases layers with
      | nil => cases hl
      | cons ts layers =>
        obtain ⟨i1, i2⟩ := ih layers (by simpa using hl) (fun x hx => hw x (List.mem_cons_of_mem _ hx))
          (fun x hx => hle x (List.mem_cons_of_mem _ hx)) (fun x hx => ht x (List.mem_cons_of_mem _ hx))
        obtain ⟨s1, s2⟩ := softLoss_bounds hb (ht ts List.mem_cons_self)
        have w0 := hw w List.mem_cons_self
        have w1 := hle w List.mem_cons_self
        simp only [List.zipWith_cons_cons, List.sum_cons, List.map_cons, Nat.cast_add]
        have p1 := mul_nonneg w0 s1
        have p2 : w * softLoss b ts ≤ m * (ts.length : ℝ) := mul_le_mul w1 s2 s1 hmpos.le
        constructor
        · linarith
        · rw [mul_add]; linarith
  obtain ⟨k1, k2⟩ := key ws layers hl hw hm.2 ht
  constructor
  · exact mul_nonneg hf (div_nonneg k1 hmpos.le)
  · refine mul_le_mul_of_nonneg_left ?_ hf
    rw [div_le_iff₀ hmpos, mul_comm]
    exact k2

/-- **C142 (what it asks for).**  The regularization vanishes exactly when, in every layer with a positive weight, every
soft target is a definite rounding (zero or one). -/
theorem C142_zero_iff {fw : RegFw} {b factor m r : ℝ} {ws : List ℝ} {layers : List (List ℝ)} (hb : 0 < b)
    (hf : 0 < factor) (hw : ∀ w ∈ ws, 0 ≤ w) (hm : IsMax ws m) (ht : ∀ ts ∈ layers, ∀ t ∈ ts, 0 ≤ t ∧ t ≤ 1)
    (h : regTerm fw b factor ws layers = some r) :
    r = 0 ↔ ∀ (i : ℕ) (w : ℝ) (ts : List ℝ), ws[i]? = some w → layers[i]? = some ts → 0 < w → ∀ t ∈ ts, t = 0 ∨ t = 1 := by
  obtain ⟨hl, h0, rfl⟩ := regTerm_some h hm
  rw [mul_eq_zero, or_iff_right hf.ne', div_eq_zero_iff, or_iff_left h0]
  clear hm h h0
  induction ws generalizing layers with
  | nil => simp
  | cons w ws ih =>
    cases layers with
    | nil => cases hl
    | cons ts layers =>
      have hw' : ∀ x ∈ ws, 0 ≤ x := fun x hx => hw x (List.mem_cons_of_mem _ hx)
      have ht' : ∀ x ∈ layers, ∀ t ∈ x, 0 ≤ t ∧ t ≤ 1 := fun x hx => ht x (List.mem_cons_of_mem _ hx)
      have ih := ih hw' ht' (by simpa using hl)
      have hrest : 0 ≤ (List.zipWith (fun w ts => w * softLoss b ts) ws layers).sum := by
        refine List.sum_nonneg ?_
        intro x hx
        rw [List.mem_iff_getElem] at hx
        obtain ⟨i, hi, rfl⟩ := hx
        rw [List.length_zipWith, lt_min_iff] at hi
        rw [List.getElem_zipWith]
        exact mul_nonneg (hw' _ (List.getElem_mem hi.1)) (softLoss_bounds hb (ht' _ (List.getElem_mem hi.2))).1
      have w0 := hw w List.mem_cons_self
      have hts := ht ts List.mem_cons_self
      have s0 := (softLoss_bounds hb hts).1
      have hsplit : (List.zipWith (fun w ts => w * softLoss b ts) (w :: ws) (ts :: layers)).sum = 0 ↔
          w * softLoss b ts = 0 ∧ (List.zipWith (fun w ts => w * softLoss b ts) ws layers).sum = 0 := by
        rw [List.zipWith_cons_cons, List.sum_cons]
        have := mul_nonneg w0 s0
        constructor
        · intro he; constructor <;> linarith
        · rintro ⟨e1, e2⟩; rw [e1, e2, add_zero]
      rw [hsplit, ih]
      constructor
      · rintro ⟨h1, h2⟩ i w' ts' hi1 hi2 hpos
        cases i with
        | zero =>
          simp only [List.getElem?_cons_zero, Option.some.injEq] at hi1 hi2
          subst hi1 hi2
          rcases mul_eq_zero.mp h1 with h1 | h1
          · exact absurd h1 hpos.ne'
          · exact (softLoss_zero_iff hb hts).mp h1
        | succ i => exact h2 i w' ts' (by simpa using hi1) (by simpa using hi2) hpos
      · intro hh
        refine ⟨?_, fun i w' ts' h1 h2 => hh (i + 1) w' ts' (by simpa using h1) (by simpa using h2)⟩
        rcases eq_or_lt_of_le w0 with h1 | h1
        · rw [← h1, zero_mul]
        · rw [(softLoss_zero_iff hb hts).mpr (hh 0 w ts (by simp) (by simp) h1), mul_zero]

/-- **C142 (direction).**  Soft targets that are farther from one half never have a larger regularization. -/
theorem C142_monotone {fw : RegFw} {b factor m r r' : ℝ} {ws : List ℝ} {layers layers' : List (List ℝ)} (hb : 0 < b)
    (hf : 0 ≤ factor) (hw : ∀ w ∈ ws, 0 ≤ w) (hm : IsMax ws m)
    (hfar : List.Forall₂ (List.Forall₂ fun t t' : ℝ => |t - 1 / 2| ≤ |t' - 1 / 2|) layers layers')
    (h : regTerm fw b factor ws layers = some r) (h' : regTerm fw b factor ws layers' = some r') : r' ≤ r := by
  obtain ⟨-, h0, rfl⟩ := regTerm_some h hm
  obtain ⟨-, -, rfl⟩ := regTerm_some h' hm
  have hmpos : 0 < m := lt_of_le_of_ne (hw m hm.1) (Ne.symm h0)
  refine mul_le_mul_of_nonneg_left (div_le_div_of_nonneg_right ?_ hmpos.le) hf
  have hs : ∀ {ts ts' : List ℝ}, List.Forall₂ (fun t t' : ℝ => |t - 1 / 2| ≤ |t' - 1 / 2|) ts ts' →
      softLoss b ts' ≤ softLoss b ts := by
    intro ts ts' hh
    induction hh with
    | nil => exact le_refl _
    | cons h1 _ ih =>
      simp only [softLoss, List.map_cons, List.sum_cons] at ih ⊢
      have := Real.rpow_le_rpow (by positivity) (mul_le_mul_of_nonneg_right h1 zero_le_two) hb.le
      linarith
  clear h h' h0 hm
  induction hfar generalizing ws with
  | nil => simp
  | cons h1 _ ih =>
    cases ws with
    | nil => simp
    | cons w ws =>
      simp only [List.zipWith_cons_cons, List.sum_cons]
      have := ih (ws := ws) (fun x hx => hw x (List.mem_cons_of_mem _ hx))
      have := mul_le_mul_of_nonneg_left (hs h1) (hw w List.mem_cons_self)
      linarith

/-- **C142 (schedule).**  Step `i` of a training of `total` steps uses the exponent of that step, which stays between 20 and 2
and never grows. -/
theorem C142_schedule {fw : RegFw} {total : ℕ} {a : Anneal ℝ} (ha : regSchedule total = some a) (factor : ℝ)
    (steps : List (List ℝ × List (List ℝ))) :
    (∀ i s, steps[i]? = some s → (regRun fw a factor 0 steps)[i]? = some (regTerm fw (a.at i) factor s.1 s.2)) ∧
    (∀ i, 2 ≤ a.at i ∧ a.at i ≤ 20) ∧ Antitone a.at := by
  obtain ⟨-, h2⟩ := C89_monotone _ _ _ _ a ha
  obtain ⟨h3, h4⟩ := h2 (by norm_num)
  refine ⟨?_, h4, h3⟩
  suffices H : ∀ k i s, steps[i]? = some s →
      (regRun fw a factor k steps)[i]? = some (regTerm fw (a.at (k + i)) factor s.1 s.2) by
    intro i s hs
    have := H 0 i s hs
    rwa [Nat.zero_add] at this
  induction steps with
  | nil => intro k i s hs; simp at hs
  | cons p steps ih =>
    intro k i s hs
    obtain ⟨ws, layers⟩ := p
    cases i with
    | zero =>
      simp only [List.getElem?_cons_zero, Option.some.injEq] at hs
      subst hs
      simp [regRun]
    | succ i =>
      simp only [List.getElem?_cons_succ] at hs
      have := ih (k + 1) i s hs
      simp only [regRun, List.getElem?_cons_succ]
      rw [this, show k + 1 + i = k + (i + 1) by omega]

/-- **C142 (violated: no scores).**  When all scores are zero the regularization, and with it the loss, is no number. -/
theorem C142_zero_scores_violated (fw : RegFw) (b factor : ℝ) (n : ℕ) (layers : List (List ℝ)) (hn : 0 < n) :
    regTerm fw b factor (List.replicate n 0) layers = none := by
  unfold regTerm
  split_ifs
  · rfl
  · have hm : IsMax (List.replicate n (0 : ℝ)) 0 :=
      ⟨List.mem_replicate.mpr ⟨hn.ne', rfl⟩, fun x hx => (List.eq_of_mem_replicate hx).le⟩
    rw [max?_of_isMax hm]
    simp

/-- **C142 (violated: nothing to train).**  Without quantized kernels the regularization is an error in PyTorch. -/
theorem C142_no_layers_violated (b factor : ℝ) :
    regTerm .pytorch b factor [] [] = none ∧ regTerm .keras b factor [] [] = some 0 := by
  constructor <;> simp [regTerm]

/-- **C142 (violated: the order of Keras).**  In every graph with two trained layers, one in an earlier generation than the
other but of smaller depth (a short branch beside a long one), whatever the order inside generations and
depths: the scores are given to other layers than their own, and there are scores and soft targets for which the
regularization is not the specified one. -/
theorem C142_keras_order_violated {edges : List (ℕ × ℕ)} {gen depth : ℕ → ℕ} (_hg : IsGeneration edges gen)
    (_hd : IsDepth edges depth) {os ls : List ℕ} (hp : ls.Perm os) (hn : os.Nodup)
    (hos : os.Pairwise fun u v => gen u ≤ gen v) (hls : ls.Pairwise fun u v => depth v ≤ depth u) {u v : ℕ}
    (hu : u ∈ os) (hv : v ∈ os) (hgen : gen u < gen v) (hdepth : depth u < depth v) {b factor : ℝ} (hb : 0 < b)
    (hf : factor ≠ 0) :
    os ≠ ls ∧ ∃ (score : ℕ → ℝ) (targets : ℕ → List ℝ) (m r : ℝ), (∀ n, 0 ≤ score n) ∧
      (∀ n, ∀ t ∈ targets n, 0 ≤ t ∧ t ≤ 1) ∧ IsMax (os.map score) m ∧ m ≠ 0 ∧
      modelReg .keras b factor score targets os ls = some r ∧ r ≠ regSpec b factor score targets os m := by
  have hne : os ≠ ls := by
    rintro rfl
    obtain ⟨i, hi, rfl⟩ := List.mem_iff_getElem.mp hu
    obtain ⟨j, hj, rfl⟩ := List.mem_iff_getElem.mp hv
    rcases lt_trichotomy i j with h | h | h
    · exact absurd (List.pairwise_iff_getElem.mp hls i j hi hj h) (not_le.mpr hdepth)
    · subst h; exact lt_irrefl _ hgen
    · exact absurd (List.pairwise_iff_getElem.mp hos j i hj hi h) (not_le.mpr hgen)
  refine ⟨hne, ?_⟩
  have hlen := hp.length_eq
  obtain ⟨i, hi, hdiff⟩ : ∃ i, ∃ hi : i < os.length, os[i] ≠ ls[i]'(hlen ▸ hi) := by
    by_contra hx
    push Not at hx
    exact hne (List.ext_getElem hlen.symm fun i h1 _ => hx i h1)
  refine ⟨fun n => if n = os[i] then 1 else 0, fun n => if n = ls[i]'(hlen ▸ hi) then [1 / 2] else [], 1, factor * 1,
    fun n => by dsimp only; split_ifs <;> norm_num, fun n t ht => ?_, ?_, one_ne_zero, ?_, ?_⟩
  · dsimp only at ht
    split_ifs at ht
    · rw [List.mem_singleton] at ht; subst ht; constructor <;> norm_num
    · cases ht
  · refine ⟨List.mem_map.mpr ⟨os[i], List.getElem_mem hi, if_pos rfl⟩, fun x hx => ?_⟩
    obtain ⟨n, -, rfl⟩ := List.mem_map.mp hx
    split_ifs <;> norm_num
  · unfold modelReg
    rw [regTerm_of_isMax (m := 1) (by rw [List.length_map, List.length_map, hlen]) ?_ one_ne_zero, div_one]
    · congr 2
      rw [List.zipWith_map]
      have : List.zipWith (fun o l => (if o = os[i] then (1 : ℝ) else 0) *
          softLoss b (if l = ls[i]'(hlen ▸ hi) then [1 / 2] else [])) os ls =
          (List.range os.length).map fun j => if j = i then (1 : ℝ) else 0 := by
        refine List.ext_getElem (by simp [hlen]) fun j h1 h2 => ?_
        rw [List.getElem_zipWith, List.getElem_map, List.getElem_range]
        have hj : j < os.length := by simpa using h2
        by_cases hji : j = i
        · subst hji
          simp [softLoss, Real.zero_rpow hb.ne']
        · have : os[j] ≠ os[i] := fun he => hji ((hn.getElem_inj_iff).mp he)
          simp [this, hji]
      rw [this]
      have hs : ∀ n, i < n → ((List.range n).map fun j => if j = i then (1 : ℝ) else 0).sum = 1 := by
        intro n
        induction n with
        | zero => intro h; omega
        | succ n ih =>
          intro h
          rw [List.range_succ, List.map_append, List.sum_append]
          by_cases hni : n = i
          · subst hni
            have : ((List.range n).map fun j => if j = n then (1 : ℝ) else 0).sum = 0 := by
              refine List.sum_eq_zero fun x hx => ?_
              obtain ⟨j, hj, rfl⟩ := List.mem_map.mp hx
              rw [List.mem_range] at hj
              exact if_neg (by omega)
            rw [this]
            simp
          · rw [ih (by omega)]
            simp [hni]
      exact hs _ hi
    · refine ⟨List.mem_map.mpr ⟨os[i], List.getElem_mem hi, if_pos rfl⟩, fun x hx => ?_⟩
      obtain ⟨n, -, rfl⟩ := List.mem_map.mp hx
      split_ifs <;> norm_num
  · have : regSpec b factor (fun n => if n = os[i] then 1 else 0)
        (fun n => if n = ls[i]'(hlen ▸ hi) then [1 / 2] else []) os 1 = 0 := by
      unfold regSpec
      rw [List.sum_eq_zero, mul_zero]
      intro x hx
      obtain ⟨n, -, rfl⟩ := List.mem_map.mp hx
      by_cases h : n = os[i]
      · simp [h, hdiff]
      · simp [h]
    rw [this, mul_one]
    exact hf

/-! ### The hypotheses can be met -/

/-- Two branches that are added: 0 input, 1 the short one, 2, 3, 4 the long one, 5 the sum. -/
def branches : List (ℕ × ℕ) := [(0, 1), (0, 2), (2, 3), (3, 4), (1, 5), (4, 5)]

def branchGen (n : ℕ) : ℕ := match n with
  | 1 => 1
  | 2 => 1
  | 3 => 2
  | 4 => 3
  | 5 => 4
  | _ => 0

def branchDepth (n : ℕ) : ℕ := match n with
  | 0 => 4
  | 1 => 1
  | 2 => 3
  | 3 => 2
  | 4 => 1
  | _ => 0

example : IsGeneration branches branchGen ∧ IsDepth branches branchDepth ∧ [2, 3, 1, 4].Perm [1, 2, 3, 4] ∧
    ([1, 2, 3, 4].Pairwise fun u v => branchGen u ≤ branchGen v) ∧
    ([2, 3, 1, 4].Pairwise fun u v => branchDepth v ≤ branchDepth u) ∧ branchGen 1 < branchGen 3 ∧
    branchDepth 1 < branchDepth 3 := by
  refine ⟨fun v => ?_, fun v => ?_, by decide, by decide, by decide, by decide, by decide⟩
  · by_cases h : v < 6
    · interval_cases v <;> decide
    · have e : branches.filter (fun e => e.2 = v) = [] := by
        rw [List.filter_eq_nil_iff]
        intro e he
        simp only [branches, List.mem_cons, List.not_mem_nil, or_false] at he
        rcases he with rfl | rfl | rfl | rfl | rfl | rfl <;> simp <;> omega
      rw [e]
      unfold branchGen
      split <;> first | omega | rfl
  · by_cases h : v < 6
    · interval_cases v <;> decide
    · have e : branches.filter (fun e => e.1 = v) = [] := by
        rw [List.filter_eq_nil_iff]
        intro e he
        simp only [branches, List.mem_cons, List.not_mem_nil, or_false] at he
        rcases he with rfl | rfl | rfl | rfl | rfl | rfl <;> simp <;> omega
      rw [e]
      unfold branchDepth
      split <;> first | omega | rfl

/-- Two layers, the second with half the score of the first: `1 * (1 - 0) + 1/2 * (1 - 1/4) = 11/8`, at exponent 2. -/
example : modelReg .pytorch 2 1 (fun n => if n = 0 then 2 else 1) (fun n => if n = 0 then [1 / 2, 1] else [3 / 4])
    [0, 1] [0, 1] = some (11 / 8) := by
  rw [C142_own_weight (m := 2) _ _ _ _ _ ⟨by simp, by simp⟩ (by norm_num)]
  simp only [regSpec, List.map_cons, List.map_nil, List.sum_cons, List.sum_nil, if_true, one_ne_zero, if_false]
  norm_num

end MCT.Train
