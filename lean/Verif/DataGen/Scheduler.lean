/-
C119: the learning rate of data generation (`SchedulerType.REDUCE_ON_PLATEAU_WITH_RESET` of PyTorch and
`SchedulerType.REDUCE_ON_PLATEAU` of Keras).

Sources (under /repo/model_compression_toolkit/data_generation):
  pytorch/optimization_functions/lr_scheduler.py 22-200, keras/optimization_functions/lr_scheduler.py 23-200
  (the same code), pytorch/optimization_functions/scheduler_step_functions.py 36-80.
-/
import Mathlib.Algebra.Order.Field.Basic
import Mathlib.Tactic.Ring
import Mathlib.Tactic.Linarith
import Mathlib.Tactic.NormNum
import Mathlib.Tactic.Positivity
import Mathlib.Data.List.Basic

namespace MCT.DataGen.Plateau

variable {K : Type} [Field K] [LinearOrder K]

/-- Arguments of the scheduler; `maximize` is `mode == 'max'`, `relative` is `threshold_mode == 'rel'`. -/
structure Args (K : Type) where
  maximize : Bool
  relative : Bool
  factor : K
  patience : ℕ
  threshold : K
  cooldown : ℕ
  minLr : K
  eps : K

/-- The rate of the optimizer (one parameter group), `best` (`none` for the infinity that is worse than every
number), `num_bad_epochs` and `cooldown_counter`. -/
structure State (K : Type) where
  lr : K
  best : Option K
  bad : ℕ
  cd : ℕ
  deriving DecidableEq

/-- After `__init__`: `_reset` leaves the rate alone. (90-103) -/
def fresh (lr : K) : State K := ⟨lr, none, 0, 0⟩

/-- `is_better` (162-186); a number is better than the infinity `mode_worse` for a relative threshold below 1 and
for every absolute one. -/
def isBetter (a : Args K) (x : K) : Option K → Bool
  | none => true
  | some b =>
    if a.maximize = false ∧ a.relative = true then decide (x < b * (1 - a.threshold))
    else if a.maximize = false then decide (x < b - a.threshold)
    else if a.relative then decide (x > b * (a.threshold + 1))
    else decide (x > b + a.threshold)

/-- `_reduce_lr` for the parameter group. (134-151) -/
def reduceLr (a : Args K) (lr : K) : K :=
  let new := max (lr * a.factor) a.minLr
  if lr - new > a.eps then new else lr

/-- `step` of PyTorch, `on_epoch_end` of Keras. (99-132) -/
def step (a : Args K) (s : State K) (x : K) : State K :=
  let better := isBetter a x s.best
  let best := if better then some x else s.best
  let bad := if better then 0 else s.bad + 1
  let bad' := if 0 < s.cd then 0 else bad
  let cd' := if 0 < s.cd then s.cd - 1 else s.cd
  if a.patience < bad' then ⟨reduceLr a s.lr, none, 0, a.cooldown⟩ else ⟨s.lr, best, bad', cd'⟩

/-- The steps of a run: one for each reported loss. -/
def run (a : Args K) (s : State K) (xs : List K) : State K := xs.foldl (step a) s

/-- The arguments of data generation: `min_lr=1e-4, factor=0.5, patience=int(n_iter / 50)` and the defaults.
(`scheduler_step_functions.py` 36-46) -/
def ofIterations (nIter : ℕ) : Args ℚ := ⟨false, true, 1 / 2, nIter / 50, 1 / 10000, 0, 1 / 10000, 1 / 100000000⟩

/-! ### Specification -/

/-- The rate after the first `k` of the losses, from a fresh scheduler. -/
def rateAfter (a : Args K) (lr : K) (xs : List K) (k : ℕ) : K := (run a (fresh lr) (xs.take k)).lr

/-- The rate changes at the loss with index `k`. -/
def ChangesAt (a : Args K) (lr : K) (xs : List K) (k : ℕ) : Prop :=
  k < xs.length ∧ rateAfter a lr xs (k + 1) ≠ rateAfter a lr xs k

/-! ### Lemmas -/

variable [IsStrictOrderedRing K]

theorem reduceLr_le (a : Args K) (he : 0 ≤ a.eps) (lr : K) : reduceLr a lr ≤ lr := by
  unfold reduceLr
  dsimp only
  split <;> linarith

theorem reduceLr_ge (a : Args K) (lr : K) : min lr a.minLr ≤ reduceLr a lr := by
  unfold reduceLr
  dsimp only
  split
  · exact le_trans (min_le_right _ _) (le_max_right _ _)
  · exact min_le_left _ _

theorem step_lr (a : Args K) (s : State K) (x : K) :
    (step a s x).lr = s.lr ∨ (step a s x).lr = reduceLr a s.lr ∧ (step a s x).best = none ∧
      (step a s x).bad = 0 := by
  unfold step
  dsimp only
  generalize (if 0 < s.cd then 0 else if isBetter a x s.best then 0 else s.bad + 1) = b'
  by_cases h : a.patience < b'
  · rw [if_pos h]; exact Or.inr ⟨rfl, rfl, rfl⟩
  · rw [if_neg h]; exact Or.inl rfl

theorem run_append (a : Args K) (s : State K) (xs ys : List K) : run a s (xs ++ ys) = run a (run a s xs) ys :=
  List.foldl_append

theorem run_lr_le (a : Args K) (he : 0 ≤ a.eps) : ∀ (xs : List K) (s : State K), (run a s xs).lr ≤ s.lr
  | [], s => le_refl _
  | x :: xs, s => by
      refine le_trans (run_lr_le a he xs (step a s x)) ?_
      rcases step_lr a s x with h | h
      · rw [h]
      · rw [h.1]; exact reduceLr_le a he _

theorem run_lr_ge (a : Args K) : ∀ (xs : List K) (s : State K), min s.lr a.minLr ≤ (run a s xs).lr
  | [], s => min_le_left _ _
  | x :: xs, s => by
      refine le_trans ?_ (run_lr_ge a xs (step a s x))
      refine le_min ?_ (min_le_right _ _)
      rcases step_lr a s x with h | h
      · rw [h]; exact min_le_left _ _
      · rw [h.1]; exact reduceLr_ge a _

omit [IsStrictOrderedRing K] in
/-- A state soon after a reset: `m` losses at most since it, the first of which is better than infinity. -/
def Within (m : ℕ) (s : State K) : Prop := (s.best = none ∧ s.bad = 0) ∨ (s.best ≠ none ∧ s.bad + 1 ≤ m)

theorem step_within (a : Args K) (s : State K) (x : K) (m : ℕ) (h : Within m s) (hm : m ≤ a.patience) :
    (step a s x).lr = s.lr ∧ Within (m + 1) (step a s x) := by
  have hbad : (if 0 < s.cd then 0 else (if isBetter a x s.best then 0 else s.bad + 1)) ≤ m := by
    rcases h with ⟨hb, h0⟩ | ⟨hb, h0⟩
    · rw [hb]; simp [isBetter]
    · split
      · omega
      · split <;> omega
  have hbest : (if isBetter a x s.best then some x else s.best) ≠ none := by
    rcases h with ⟨hb, h0⟩ | ⟨hb, h0⟩
    · rw [hb]; simp [isBetter]
    · split
      · simp
      · exact hb
  unfold step
  dsimp only
  rw [if_neg (by omega)]
  exact ⟨rfl, Or.inr ⟨hbest, by dsimp only; omega⟩⟩

theorem run_within (a : Args K) : ∀ (xs : List K) (s : State K) (m : ℕ), Within m s →
    m + xs.length ≤ a.patience + 1 → (run a s xs).lr = s.lr ∧ Within (m + xs.length) (run a s xs)
  | [], s, m, h, _ => ⟨rfl, h⟩
  | x :: xs, s, m, h, hl => by
      rw [List.length_cons] at hl
      obtain ⟨h1, h2⟩ := step_within a s x m h (by omega)
      obtain ⟨h3, h4⟩ := run_within a xs (step a s x) (m + 1) h2 (by omega)
      refine ⟨h3.trans h1, ?_⟩
      rw [List.length_cons, show m + (xs.length + 1) = m + 1 + xs.length by omega]
      exact h4

theorem take_split {α : Type} (xs : List α) {j k : ℕ} (h : j ≤ k) :
    xs.take k = xs.take j ++ (xs.drop j).take (k - j) := by
  rw [← List.take_add]; congr 1; omega

theorem take_succ_get {α : Type} (xs : List α) {k : ℕ} (h : k < xs.length) :
    xs.take (k + 1) = xs.take k ++ [xs[k]] := by
  rw [List.take_add_one, List.getElem?_eq_getElem h]; rfl

theorem rate_succ (a : Args K) (lr : K) (xs : List K) (k : ℕ) (h : k < xs.length) :
    rateAfter a lr xs (k + 1) = (step a (run a (fresh lr) (xs.take k)) xs[k]).lr := by
  unfold rateAfter
  rw [take_succ_get xs h, run_append]; rfl

/-! ### C119 -/

/-- **C119** (bounds).  For every sequence of losses the rate never rises, it never falls below the smaller of
its initial value and the minimum, and once it has left the initial value it never returns to it. -/
theorem C119_rate (a : Args K) (he : 0 ≤ a.eps) (lr : K) (xs : List K) :
    (∀ j k, j ≤ k → rateAfter a lr xs k ≤ rateAfter a lr xs j) ∧
    (∀ k, min lr a.minLr ≤ rateAfter a lr xs k) ∧
    (∀ j k, j ≤ k → rateAfter a lr xs j ≠ lr → rateAfter a lr xs k < lr) := by
  have hmono : ∀ j k, j ≤ k → rateAfter a lr xs k ≤ rateAfter a lr xs j := by
    intro j k h
    unfold rateAfter
    rw [take_split xs h, run_append]
    exact run_lr_le a he _ _
  refine ⟨hmono, fun k => run_lr_ge a _ (fresh lr), ?_⟩
  intro j k h hj
  have h0 : rateAfter a lr xs j ≤ rateAfter a lr xs 0 := hmono 0 j (by omega)
  have h1 : rateAfter a lr xs 0 = lr := rfl
  rw [h1] at h0
  exact lt_of_le_of_lt (hmono j k h) (lt_of_le_of_ne h0 hj)

/-- **C119** (patience).  For every sequence of losses, the first change comes after at least `patience + 1`
losses, and between two changes there are at least `patience + 1` losses without one. -/
theorem C119_spacing (a : Args K) (lr : K) (xs : List K) (k : ℕ) (hk : ChangesAt a lr xs k) :
    a.patience + 1 ≤ k ∧ ∀ j, j < k → ChangesAt a lr xs j → j + a.patience + 2 ≤ k := by
  have aux : ∀ (s : State K) (ys : List K) (y : K), Within 0 s → (run a s (ys ++ [y])).lr ≠ (run a s ys).lr →
      a.patience + 1 ≤ ys.length := by
    intro s ys y hs hne
    by_contra hlt
    have h1 := (run_within a (ys ++ [y]) s 0 hs (by simp; omega)).1
    have h2 := (run_within a ys s 0 hs (by omega)).1
    exact hne (h1.trans h2.symm)
  obtain ⟨hl, hne⟩ := hk
  constructor
  · have := aux (fresh lr) (xs.take k) xs[k] (Or.inl ⟨rfl, rfl⟩) (by
      rw [← take_succ_get xs hl]; exact hne)
    rw [List.length_take] at this
    omega
  · intro j hj ⟨hjl, hjne⟩
    have hreset : Within 0 (run a (fresh lr) (xs.take (j + 1))) := by
      rw [take_succ_get xs hjl, run_append]
      rcases step_lr a (run a (fresh lr) (xs.take j)) xs[j] with h | h
      · exact absurd ((rate_succ a lr xs j hjl).trans h) hjne
      · exact Or.inl h.2
    have e1 : xs.take k = xs.take (j + 1) ++ (xs.drop (j + 1)).take (k - (j + 1)) := take_split xs (by omega)
    have := aux _ ((xs.drop (j + 1)).take (k - (j + 1))) xs[k] hreset (by
      rw [← run_append, ← run_append, ← List.append_assoc, ← e1, ← take_succ_get xs hl]; exact hne)
    rw [List.length_take, List.length_drop] at this
    omega

/-- **C119** (falling losses).  Losses each of which is below the previous one by more than the threshold never
change the rate. -/
theorem C119_falling (a : Args K) (hm : a.maximize = false) (hr : a.relative = true) (lr : K) (xs : List K)
    (hdec : ∀ (i : ℕ) (x y : K), xs[i]? = some x → xs[i + 1]? = some y → y < x * (1 - a.threshold)) (k : ℕ) :
    rateAfter a lr xs k = lr := by
  have key : ∀ (ys : List K) (s : State K), s.bad = 0 →
      (∀ b, s.best = some b → ∀ y, ys.head? = some y → y < b * (1 - a.threshold)) →
      (∀ (i : ℕ) (x y : K), ys[i]? = some x → ys[i + 1]? = some y → y < x * (1 - a.threshold)) →
      (run a s ys).lr = s.lr := by
    intro ys
    induction ys with
    | nil => intro s _ _ _; rfl
    | cons y ys ih =>
        intro s hbad hb hd
        have hbetter : isBetter a y s.best = true := by
          cases hbe : s.best with
          | none => rfl
          | some b =>
              simp only [isBetter]
              rw [if_pos ⟨hm, hr⟩]
              simpa using hb b hbe y rfl
        have hstep : (step a s y).lr = s.lr ∧ (step a s y).bad = 0 ∧ (step a s y).best = some y := by
          unfold step
          dsimp only
          rw [hbetter]
          simp
        change (run a (step a s y) ys).lr = s.lr
        rw [← hstep.1]
        apply ih _ hstep.2.1
        · intro b hbe z hz
          rw [hstep.2.2] at hbe
          have := Option.some.inj hbe
          subst this
          exact hd 0 y z rfl (by simpa [List.head?_eq_getElem?] using hz)
        · intro i x z hx hz
          exact hd (i + 1) x z (by simpa using hx) (by simpa using hz)
  unfold rateAfter
  refine key _ (fresh lr) rfl (by intro b hb; cases hb) ?_
  intro i x y hx hy
  rw [List.getElem?_take] at hx hy
  split at hx
  · split at hy
    · exact hdec i x y hx hy
    · cases hy
  · cases hx

theorem run_replicate_reset (a : Args K) (hm : a.maximize = false) (hr : a.relative = true)
    (ht : 0 ≤ a.threshold) (hc : a.cooldown = 0) (x : K) (hx : 0 ≤ x) (lr : K) :
    ∀ (m : ℕ), m ≤ a.patience + 1 → run a (fresh lr) (List.replicate m x) =
      if m = 0 then fresh lr else ⟨lr, some x, m - 1, 0⟩
  | 0, _ => rfl
  | m + 1, h => by
      rw [List.replicate_succ', run_append, run_replicate_reset a hm hr ht hc x hx lr m (by omega)]
      change step a _ x = _
      rw [if_neg (Nat.succ_ne_zero m)]
      by_cases h0 : m = 0
      · subst h0
        rw [if_pos rfl]
        simp [step, fresh, isBetter]
      · rw [if_neg h0]
        have hnb : isBetter a x (some x) = false := by
          simp only [isBetter]
          rw [if_pos ⟨hm, hr⟩]
          simp only [decide_eq_false_iff_not, not_lt]
          nlinarith
        unfold step
        dsimp only
        rw [hnb]
        simp only [Bool.false_eq_true, if_false, lt_self_iff_false]
        rw [if_neg (by omega)]
        congr 1
        omega

theorem run_cycle (a : Args K) (hm : a.maximize = false) (hr : a.relative = true)
    (ht : 0 ≤ a.threshold) (hc : a.cooldown = 0) (x : K) (hx : 0 ≤ x) (lr : K) :
    run a (fresh lr) (List.replicate (a.patience + 2) x) = fresh (reduceLr a lr) := by
  rw [List.replicate_succ', run_append, run_replicate_reset a hm hr ht hc x hx lr _ (le_refl _),
    if_neg (by omega)]
  change step a _ x = _
  have hnb : isBetter a x (some x) = false := by
    simp only [isBetter]
    rw [if_pos ⟨hm, hr⟩]
    simp only [decide_eq_false_iff_not, not_lt]
    nlinarith
  unfold step
  dsimp only
  rw [hnb]
  simp only [Bool.false_eq_true, if_false, lt_self_iff_false]
  rw [if_pos (by omega), hc]
  rfl

/-- **C119** (plateau).  A loss that stays at a value that is not negative lowers the rate once in every
`patience + 2` steps. -/
theorem C119_plateau (a : Args K) (hm : a.maximize = false) (hr : a.relative = true)
    (ht : 0 ≤ a.threshold) (hc : a.cooldown = 0) (x : K) (hx : 0 ≤ x) :
    ∀ (q m : ℕ), m < a.patience + 2 → ∀ lr : K,
      (run a (fresh lr) (List.replicate (q * (a.patience + 2) + m) x)).lr = (reduceLr a)^[q] lr
  | 0, m, h, lr => by
      rw [Nat.zero_mul, Nat.zero_add, run_replicate_reset a hm hr ht hc x hx lr m (by omega)]
      split <;> rfl
  | q + 1, m, h, lr => by
      rw [show (q + 1) * (a.patience + 2) + m = (a.patience + 2) + (q * (a.patience + 2) + m) by ring,
        List.replicate_add, run_append, run_cycle a hm hr ht hc x hx lr,
        C119_plateau a hm hr ht hc x hx q m h, Function.iterate_succ_apply]

/-- **C119, false for negative losses.**  A loss that stays at a negative value is taken for an improvement at
every step, and the rate is never lowered, however long the plateau. -/
theorem C119_negative_plateau_violated (a : Args K) (hm : a.maximize = false) (hr : a.relative = true)
    (ht : 0 < a.threshold) (lr x : K) (hx : x < 0) (n k : ℕ) :
    rateAfter a lr (List.replicate n x) k = lr := by
  apply C119_falling a hm hr
  intro i y z hy hz
  have e1 := List.eq_of_mem_replicate (List.mem_of_getElem? hy)
  have e2 := List.eq_of_mem_replicate (List.mem_of_getElem? hz)
  subst e1
  rw [e2]
  nlinarith

/-- A reported value improves on another by more than the threshold: it is smaller or larger, by a share or by an amount. -/
def Improves (a : Args K) (x y : K) : Prop :=
  match a.maximize, a.relative with
  | false, true => y < x - x * a.threshold
  | false, false => y < x - a.threshold
  | true, true => x + x * a.threshold < y
  | true, false => x + a.threshold < y

/-- **C119** (every mode).  Whether values are to fall or to rise and whether the threshold is a share or an amount, values
each of which improves on the previous one by more than the threshold never change the rate. -/
theorem C119_improving (a : Args K) (lr : K) (xs : List K)
    (hdec : ∀ (i : ℕ) (x y : K), xs[i]? = some x → xs[i + 1]? = some y → Improves a x y) (k : ℕ) :
    rateAfter a lr xs k = lr := by
  have hI : ∀ x y, Improves a x y → isBetter a y (some x) = true := by
    intro x y h
    unfold Improves at h
    simp only [isBetter]
    cases hm : a.maximize <;> cases hr : a.relative <;> rw [hm, hr] at h <;> simp only at h <;> simp <;> linarith
  have key : ∀ (ys : List K) (s : State K), s.bad = 0 →
      (∀ b, s.best = some b → ∀ y, ys.head? = some y → Improves a b y) →
      (∀ (i : ℕ) (x y : K), ys[i]? = some x → ys[i + 1]? = some y → Improves a x y) →
      (run a s ys).lr = s.lr := by
    intro ys
    induction ys with
    | nil => intro s _ _ _; rfl
    | cons y ys ih =>
        intro s hbad hb hd
        have hbetter : isBetter a y s.best = true := by
          cases hbe : s.best with
          | none => rfl
          | some b => exact hI b y (hb b hbe y rfl)
        have hstep : (step a s y).lr = s.lr ∧ (step a s y).bad = 0 ∧ (step a s y).best = some y := by
          unfold step
          dsimp only
          rw [hbetter]
          simp
        change (run a (step a s y) ys).lr = s.lr
        rw [← hstep.1]
        apply ih _ hstep.2.1
        · intro b hbe z hz
          rw [hstep.2.2] at hbe
          have := Option.some.inj hbe
          subst this
          exact hd 0 y z rfl (by simpa [List.head?_eq_getElem?] using hz)
        · intro i x z hx hz
          exact hd (i + 1) x z (by simpa using hx) (by simpa using hz)
  unfold rateAfter
  refine key _ (fresh lr) rfl (by intro b hb; cases hb) ?_
  intro i x y hx hy
  rw [List.getElem?_take] at hx hy
  split at hx
  · split at hy
    · exact hdec i x y hx hy
    · cases hy
  · cases hx

/-- **C119** (every mode).  A value that stays, with a threshold that is an amount and not negative, is not an improvement: after
more steps than the patience and one, without cool down, the rate has been lowered. -/
theorem C119_stays (a : Args K) (hr : a.relative = false) (ht : 0 ≤ a.threshold) (s : State K) (x : K)
    (hs : s.best = some x) (hc : s.cd = 0) (hb : s.bad = a.patience) :
    (step a s x).lr = reduceLr a s.lr := by
  have hnb : isBetter a x (some x) = false := by
    simp only [isBetter, hr]
    cases a.maximize <;> simp [ht]
  unfold step
  dsimp only
  rw [hs, hnb, hc, hb]
  simp

example : rateAfter (⟨true, false, 1 / 2, 1, 1, 0, 0, 0⟩ : Args ℚ) 16 [1, 3, 5] 3 = 16 := by
  apply C119_improving
  intro i x y hx hy
  match i, hx, hy with
  | 0, hx, hy => cases hx; cases hy; norm_num [Improves]
  | 1, hx, hy => cases hx; cases hy; norm_num [Improves]
  | (i + 2), hx, hy => simp at hy

/-- **C119, false for negative losses.**  Even a negative loss that gets worse at every step, by a fraction
below the threshold, never lowers the rate. -/
theorem C119_worsening_violated (a : Args K) (hm : a.maximize = false) (hr : a.relative = true) (lr r : K)
    (h0 : 0 < r) (h1 : r < 1) (ht : 1 - a.threshold < r) (n : ℕ) :
    (∀ (i : ℕ) (x y : K), ((List.range n).map fun (j : ℕ) => -(r ^ j))[i]? = some x →
      ((List.range n).map fun (j : ℕ) => -(r ^ j))[i + 1]? = some y → x < y) ∧
    ∀ k, rateAfter a lr ((List.range n).map fun (j : ℕ) => -(r ^ j)) k = lr := by
  have get : ∀ (i : ℕ) (x : K), ((List.range n).map fun (j : ℕ) => -(r ^ j))[i]? = some x → x = -(r ^ i) := by
    intro i x h
    rw [List.getElem?_map, Option.map_eq_some_iff] at h
    obtain ⟨j, hj, rfl⟩ := h
    obtain ⟨_, e⟩ := List.getElem?_eq_some_iff.mp hj
    rw [List.getElem_range] at e
    rw [e]
  constructor
  · intro i x y hx hy
    rw [get i x hx, get (i + 1) y hy, pow_succ]
    have : 0 < r ^ i := by positivity
    nlinarith
  · intro k
    apply C119_falling a hm hr
    intro i x y hx hy
    rw [get i x hx, get (i + 1) y hy, pow_succ]
    have : 0 < r ^ i := by positivity
    nlinarith

/-! ### The hypotheses can be met -/

example : rateAfter (ofIterations 100) 16 (List.replicate 3 5) 3 = 16 ∧
    rateAfter (ofIterations 100) 16 (List.replicate 4 5) 4 = 8 ∧
    rateAfter (ofIterations 100) 16 (List.replicate 8 5) 8 = 4 := by decide +kernel

example : ChangesAt (ofIterations 100) 16 (List.replicate 8 5) 3 ∧
    ChangesAt (ofIterations 100) 16 (List.replicate 8 5) 7 :=
  ⟨⟨by simp, by decide +kernel⟩, ⟨by simp, by decide +kernel⟩⟩

example : rateAfter (ofIterations 100) 16 (List.replicate 1000 (-5)) 1000 = 16 :=
  C119_negative_plateau_violated (ofIterations 100) rfl rfl (by norm_num [ofIterations]) 16 (-5) (by norm_num)
    1000 1000

example : 1 - (ofIterations 100).threshold < (19999 / 20000 : ℚ) ∧ (19999 / 20000 : ℚ) < 1 := by
  norm_num [ofIterations]

end MCT.DataGen.Plateau
