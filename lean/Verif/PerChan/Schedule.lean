import Verif.PerChan.HmseProps
import Verif.Search.Props

set_option linter.unusedSectionVars false

/-!
# Which thresholds the iterative search tries

Further statements of C10 and C131 about `qparams_symmetric_iterative_minimization`
(core/common/quantization/quantization_params_generation/qparams_search.py:158-236).
-/

namespace MCT.Search

open MCT.Quant

variable {K : Type} [Field K] [LinearOrder K] [IsStrictOrderedRing K] [FloorRing K]

/-! ### Specification -/

/-- The two factors of round `i`: they are shrunk after round 0 and then after every `decFreq`-th round, and never get
closer than `bottom` and `upper`. -/
def factors (alpha beta : K) (f : K × K) (decFreq : ℕ) (bottom upper : K) (i : ℕ) : K × K :=
  (fun s : K × K => (min (s.1 * f.1) bottom, max (s.2 * f.2) upper))^[(i + decFreq - 1) / decFreq] (alpha, beta)

/-- How much better than the best of all earlier starting points the best one of round `i` is, as a mean over the
channels: `start c i` is where round `i` starts in channel `c`, so `start c (i + 1)` is the best one of round `i`. -/
def Gain {m : ℕ} {P : Type} (lossOf : Fin m → P → K) (start : Fin m → ℕ → P) (i : ℕ) (gain : K) : Prop :=
  ∃ best : Fin m → K, (∀ c, IsLeast {l | ∃ j ≤ i, l = lossOf c (start c j)} (best c)) ∧
    gain = (∑ c, (best c - lossOf c (start c (i + 1)))) / (m : K)

/-- The rounds go on until one of them gains less than `tol`, but something. -/
def StopsAt {m : ℕ} {P : Type} (lossOf : Fin m → P → K) (start : Fin m → ℕ → P) (tol : K) (nIter r : ℕ) : Prop :=
  r ≤ nIter ∧ (0 < nIter → 0 < r) ∧
  (∀ i, i + 1 < r → ∀ gain, Gain lossOf start i gain → ¬ (0 < gain ∧ gain < tol)) ∧
  (r < nIter → ∃ gain, Gain lossOf start (r - 1) gain ∧ 0 < gain ∧ gain < tol)

/-! ### Proofs -/

/-- The state of the schedule before round `i`, when the first round has number `n`. -/
def schedFrom {S : Type} (next : ℕ → S → S) (n : ℕ) (s : S) : ℕ → S
  | 0 => s
  | i + 1 => next (n + i) (schedFrom next n s i)

theorem schedFrom_shift {S : Type} (next : ℕ → S → S) (n : ℕ) (s : S) : ∀ i,
    schedFrom next (n + 1) (next n s) i = schedFrom next n s (i + 1)
  | 0 => rfl
  | i + 1 => by
    rw [schedFrom, schedFrom_shift next n s i]
    show next (n + 1 + i) _ = next (n + (i + 1)) _
    rw [show n + 1 + i = n + (i + 1) by omega]

theorem schedFrom_symNext (alpha beta : K) (f : K × K) (d : ℕ) (hd : 0 < d) (bottom upper : K) : ∀ i,
    schedFrom (symNext d f bottom upper) 0 (alpha, beta) i = factors alpha beta f d bottom upper i
  | 0 => by
    unfold factors
    rw [Nat.zero_add, Nat.div_eq_of_lt (by omega)]
    rfl
  | i + 1 => by
    rw [schedFrom, schedFrom_symNext alpha beta f d hd bottom upper i]
    unfold symNext factors
    rw [Nat.zero_add]
    have e1 : (i + 1 + d - 1) / d = i / d + 1 := by
      rw [show i + 1 + d - 1 = i + d by omega, Nat.add_div_right _ hd]
    by_cases h : i % d = 0
    · have e2 : (i + d - 1) / d = i / d := by
        obtain ⟨q, hq⟩ := Nat.dvd_of_mod_eq_zero h
        subst hq
        rw [Nat.mul_div_cancel_left _ hd, show d * q + d - 1 = (d - 1) + d * q by omega,
          Nat.add_mul_div_left _ _ hd, Nat.div_eq_of_lt (by omega), Nat.zero_add]
      rw [if_pos h, e1, e2, Function.iterate_succ_apply']
    · have e2 : (i + d - 1) / d = i / d + 1 := by
        have h1 := Nat.div_add_mod i d
        have h2 := Nat.mod_lt i hd
        have : i + d - 1 = (i % d - 1) + d * (i / d + 1) := by
          rw [Nat.mul_add, Nat.mul_one]; omega
        rw [this, Nat.add_mul_div_left _ _ hd, Nat.div_eq_of_lt (by omega), Nat.zero_add]
      rw [if_neg h, e1, e2]

/-- The thresholds from which the rounds start. -/
def starts {P S : Type} (cands : S → P → P × List P) (inner : (P → Loss K) → P → List P → Best P K)
    (loss : P → Loss K) (sch : ℕ → S) (p : P) : ℕ → P
  | 0 => p
  | i + 1 => (inner loss (cands (sch i) (starts cands inner loss sch p i)).1
      (cands (sch i) (starts cands inner loss sch p i)).2).param

theorem starts_shift {P S : Type} (cands : S → P → P × List P) (inner : (P → Loss K) → P → List P → Best P K)
    (loss : P → Loss K) (sch : ℕ → S) (p : P) : ∀ i,
    starts cands inner loss (fun i => sch (i + 1)) (starts cands inner loss sch p 1) i =
      starts cands inner loss sch p (i + 1)
  | 0 => rfl
  | i + 1 => by rw [starts, starts_shift cands inner loss sch p i]; rfl

theorem iterRounds_trace {m : ℕ} {P S : Type} (cands : S → P → P × List P)
    (inner : (P → Loss K) → P → List P → Best P K) (loss : Fin m → P → Loss K) (next : ℕ → S → S) (tol : K) :
    ∀ (k n : ℕ) (st : IterState m P S K), ∃ r, r ≤ k ∧ (0 < k → 0 < r) ∧ ∀ c : Fin m,
      (iterRounds cands inner loss next tol k n st).seen c = st.seen c ++ (List.range r).flatMap fun i =>
        let p := cands (schedFrom next n st.sched i)
          (starts cands inner (loss c) (schedFrom next n st.sched) (st.curr c) i)
        p.1 :: p.2
  | 0, n, st => ⟨0, le_refl _, fun h => absurd h (by simp), fun c => by simp [iterRounds]⟩
  | k + 1, n, st => by
    simp only [iterRounds]
    split
    · refine ⟨1, by omega, fun _ => by omega, fun c => ?_⟩
      simp [starts, schedFrom, List.range_succ]
    · obtain ⟨r, hr, _, h⟩ := iterRounds_trace cands inner loss next tol k (n + 1)
        { curr := fun c => (inner (loss c) (cands st.sched (st.curr c)).1 (cands st.sched (st.curr c)).2).param
          best := fun c => (st.best c).update
            (inner (loss c) (cands st.sched (st.curr c)).1 (cands st.sched (st.curr c)).2).param
            (inner (loss c) (cands st.sched (st.curr c)).1 (cands st.sched (st.curr c)).2).loss
          sched := next n st.sched
          seen := fun c => st.seen c ++ (cands st.sched (st.curr c)).1 :: (cands st.sched (st.curr c)).2 }
      refine ⟨r + 1, by omega, fun _ => by omega, fun c => ?_⟩
      rw [h c, List.range_succ_eq_map, List.flatMap_cons, List.append_assoc, List.flatMap_map]
      congr 1
      have hs : (schedFrom next (n + 1) (next n st.sched)) = fun i => schedFrom next n st.sched (i + 1) :=
        funext fun i => schedFrom_shift next n st.sched i
      simp only [hs]
      have ht : ∀ i, starts cands inner (loss c) (fun i => schedFrom next n st.sched (i + 1))
          (inner (loss c) (cands st.sched (st.curr c)).1 (cands st.sched (st.curr c)).2).param i =
          starts cands inner (loss c) (schedFrom next n st.sched) (st.curr c) (i + 1) :=
        fun i => starts_shift cands inner (loss c) (schedFrom next n st.sched) (st.curr c) i
      simp only [ht]
      rfl

/-- The running best loss. -/
def bestLoss {P : Type} (F : P → K) (start : ℕ → P) (b : K) : ℕ → K
  | 0 => b
  | i + 1 => min (bestLoss F start b i) (F (start (i + 1)))

theorem bestLoss_shift {P : Type} (F : P → K) (start : ℕ → P) (b : K) : ∀ i,
    bestLoss F (fun i => start (i + 1)) (bestLoss F start b 1) i = bestLoss F start b (i + 1)
  | 0 => rfl
  | i + 1 => by rw [bestLoss, bestLoss_shift F start b i]; rfl

theorem bestLoss_least {P : Type} (F : P → K) (start : ℕ → P) : ∀ i,
    IsLeast {l | ∃ j ≤ i, l = F (start j)} (bestLoss F start (F (start 0)) i)
  | 0 => ⟨⟨0, le_refl _, rfl⟩, fun l ⟨j, hj, hl⟩ => by
      obtain rfl : j = 0 := by omega
      rw [hl]; exact le_refl _⟩
  | i + 1 => by
    obtain ⟨⟨j, hj, e⟩, hle⟩ := bestLoss_least F start i
    refine ⟨?_, fun l ⟨k, hk, hl⟩ => ?_⟩
    · rw [bestLoss]
      rcases min_choice (bestLoss F start (F (start 0)) i) (F (start (i + 1))) with h | h
      · exact ⟨j, by omega, by rw [h, e]⟩
      · exact ⟨i + 1, le_refl _, h⟩
    · rw [bestLoss, hl]
      rcases Nat.lt_or_ge k (i + 1) with h | h
      · exact le_trans (min_le_left _ _) (hle ⟨k, by omega, rfl⟩)
      · obtain rfl : k = i + 1 := by omega
        exact min_le_right _ _

theorem update_loss {P : Type} (b : Best P K) (p : P) {x y : K} (h : b.loss = .fin x) :
    (b.update p (.fin y)).loss = .fin (min x y) := by
  simp only [Best.update, h, Loss.lt, Loss.blend]
  by_cases hl : y < x
  · simp [hl, min_eq_right hl.le, Loss.mulB, Loss.add, b2k]
  · simp [hl, min_eq_left (not_lt.1 hl), Loss.mulB, Loss.add, b2k]

/-- The mean gain, from the running best. -/
def gainAt {m : ℕ} {P : Type} (F : Fin m → P → K) (start : Fin m → ℕ → P) (b : Fin m → K) (i : ℕ) : K :=
  (∑ c, (bestLoss (F c) (start c) (b c) i - F c (start c (i + 1)))) / (m : K)

theorem iterRounds_stop {m : ℕ} {P S : Type} (cands : S → P → P × List P)
    (inner : (P → Loss K) → P → List P → Best P K) (hin : InnerOK inner) (F : Fin m → P → K) (next : ℕ → S → S)
    (tol : K) :
    ∀ (k n : ℕ) (st : IterState m P S K) (b : Fin m → K), (∀ c, (st.best c).loss = .fin (b c)) →
      ∃ r, r ≤ k ∧ (0 < k → 0 < r) ∧
      let start : Fin m → ℕ → P := fun c =>
        starts cands inner (fun p => .fin (F c p)) (schedFrom next n st.sched) (st.curr c)
      (∀ c : Fin m,
        (iterRounds cands inner (fun c p => .fin (F c p)) next tol k n st).seen c = st.seen c ++
          (List.range r).flatMap fun i =>
            (cands (schedFrom next n st.sched i) (start c i)).1 ::
              (cands (schedFrom next n st.sched i) (start c i)).2) ∧
      (∀ i, i + 1 < r → ¬ (0 < gainAt F start b i ∧ gainAt F start b i < tol)) ∧
      (r < k → 0 < gainAt F start b (r - 1) ∧ gainAt F start b (r - 1) < tol)
  | 0, n, st, b, hb => ⟨0, le_refl _, fun h => absurd h (by simp), fun c => by simp [iterRounds],
      fun i hi => absurd hi (by omega), fun h => absurd h (by omega)⟩
  | k + 1, n, st, b, hb => by
    have hres : ∀ c, (inner (fun p => Loss.fin (F c p)) (cands st.sched (st.curr c)).1
        (cands st.sched (st.curr c)).2).loss = .fin (F c (inner (fun p => Loss.fin (F c p))
          (cands st.sched (st.curr c)).1 (cands st.sched (st.curr c)).2).param) :=
      fun c => (hin (F c) _ _).2.1
    have hstop : stopNow tol (fun c => (st.best c).loss) (fun c => (inner (fun p => Loss.fin (F c p))
        (cands st.sched (st.curr c)).1 (cands st.sched (st.curr c)).2).loss) = true ↔
        0 < gainAt F (fun c => starts cands inner (fun p => .fin (F c p)) (schedFrom next n st.sched) (st.curr c)) b 0 ∧
        gainAt F (fun c => starts cands inner (fun p => .fin (F c p)) (schedFrom next n st.sched) (st.curr c)) b 0
          < tol := by
      simp only [stopNow, hres, hb, Loss.toOption, gainAt, bestLoss, starts, schedFrom]
      simp
    simp only [iterRounds]
    split
    · rename_i hs
      refine ⟨1, by omega, fun _ => by omega, fun c => ?_, fun i hi => absurd hi (by omega), fun _ => hstop.1 hs⟩
      simp [starts, schedFrom, List.range_succ]
    · rename_i hs
      obtain ⟨r, hr, hr0, h, hno, hyes⟩ := iterRounds_stop cands inner hin F next tol k (n + 1)
        { curr := fun c => (inner (fun p => Loss.fin (F c p)) (cands st.sched (st.curr c)).1
            (cands st.sched (st.curr c)).2).param
          best := fun c => (st.best c).update
            (inner (fun p => Loss.fin (F c p)) (cands st.sched (st.curr c)).1 (cands st.sched (st.curr c)).2).param
            (inner (fun p => Loss.fin (F c p)) (cands st.sched (st.curr c)).1 (cands st.sched (st.curr c)).2).loss
          sched := next n st.sched
          seen := fun c => st.seen c ++ (cands st.sched (st.curr c)).1 :: (cands st.sched (st.curr c)).2 }
        (fun c => min (b c) (F c (inner (fun p => Loss.fin (F c p)) (cands st.sched (st.curr c)).1
            (cands st.sched (st.curr c)).2).param))
        (fun c => by
          show ((st.best c).update _ _).loss = _
          rw [hres c]
          exact update_loss _ _ (hb c))
      have hsch : (schedFrom next (n + 1) (next n st.sched)) = fun i => schedFrom next n st.sched (i + 1) :=
        funext fun i => schedFrom_shift next n st.sched i
      have ht : ∀ c, starts cands inner (fun p => Loss.fin (F c p)) (fun i => schedFrom next n st.sched (i + 1))
          (inner (fun p => Loss.fin (F c p)) (cands st.sched (st.curr c)).1 (cands st.sched (st.curr c)).2).param =
          fun i => starts cands inner (fun p => Loss.fin (F c p)) (schedFrom next n st.sched) (st.curr c) (i + 1) :=
        fun c => funext fun i =>
          starts_shift cands inner (fun p => Loss.fin (F c p)) (schedFrom next n st.sched) (st.curr c) i
      simp only [hsch, ht] at h hno hyes
      have hg : ∀ i, gainAt F (fun c i => starts cands inner (fun p => Loss.fin (F c p)) (schedFrom next n st.sched)
            (st.curr c) (i + 1))
          (fun c => min (b c) (F c (inner (fun p => Loss.fin (F c p)) (cands st.sched (st.curr c)).1
            (cands st.sched (st.curr c)).2).param)) i =
          gainAt F (fun c => starts cands inner (fun p => Loss.fin (F c p)) (schedFrom next n st.sched) (st.curr c)) b
            (i + 1) := by
        intro i
        unfold gainAt
        congr 1
        refine Finset.sum_congr rfl fun c _ => ?_
        congr 1
        exact bestLoss_shift (F c) (starts cands inner (fun p => Loss.fin (F c p)) (schedFrom next n st.sched)
          (st.curr c)) (b c) i
      refine ⟨r + 1, by omega, fun _ => by omega, fun c => ?_, fun i hi => ?_, fun hlt => ?_⟩
      · rw [h c, List.range_succ_eq_map, List.flatMap_cons, List.append_assoc, List.flatMap_map]
        rfl
      · cases i with
        | zero => exact fun hh => hs (hstop.2 hh)
        | succ i => rw [← hg]; exact hno i (by omega)
      · have h2 := hyes (by omega)
        have hpos : 0 < r := hr0 (by omega)
        rw [hg, show r - 1 + 1 = r + 1 - 1 by omega] at h2
        exact h2

theorem stopsAt_of {m : ℕ} {P : Type} (F : Fin m → P → K) (start : Fin m → ℕ → P) (tol : K) (nIter r : ℕ)
    (hr : r ≤ nIter) (h0 : 0 < nIter → 0 < r)
    (hno : ∀ i, i + 1 < r → ¬ (0 < gainAt F start (fun c => F c (start c 0)) i ∧
      gainAt F start (fun c => F c (start c 0)) i < tol))
    (hyes : r < nIter → 0 < gainAt F start (fun c => F c (start c 0)) (r - 1) ∧
      gainAt F start (fun c => F c (start c 0)) (r - 1) < tol) : StopsAt F start tol nIter r := by
  refine ⟨hr, h0, fun i hi gain hgain => ?_, fun h => ⟨_, ⟨_, fun c => bestLoss_least (F c) (start c) (r - 1), rfl⟩,
    hyes h⟩⟩
  obtain ⟨best, hbest, e⟩ := hgain
  have : best = fun c => bestLoss (F c) (start c) (F c (start c 0)) i :=
    funext fun c => (hbest c).unique (bestLoss_least (F c) (start c) i)
  subst this
  rw [e]
  exact hno i hi

/-- **C10 (thresholds tried).**  After the starting threshold, the search tries in each round evenly spaced thresholds
between the best one of the round before (first: the starting threshold) times the two factors of the round; at least
one round is made if any is allowed, and the rounds end early exactly after one whose best thresholds are better than
those of all earlier rounds by less than the tolerance, but by something, as a mean over the channels. -/
theorem C10_tried {m : ℕ} (perChannel : Bool) (L : List K → List (Option K) → K → K)
    (x : Fin m → List K) (x0 : Fin m → K) (n : ℕ) (signed : Bool) (nIntervals nIter : ℕ)
    (alpha beta : K) (f : K × K) (decFreq : ℕ) (hd : 0 < decFreq) (bottom upper tol : K) :
    let res := symIterMin perChannel (fun a b t => .fin (L a b t)) x x0 n signed nIntervals nIter
      alpha beta f decFreq bottom upper tol
    let lossOf : Fin m → K → K := fun c t => L (x c) ((x c).map fun v => quantizeTensor v t n signed) t
    ∃ (r : ℕ) (start : Fin m → ℕ → K), StopsAt lossOf start tol nIter r ∧ ∀ c : Fin m,
      ∃ round : ℕ → List K, start c 0 = x0 c ∧
        (∀ i, round i = (linspace (start c i * (factors alpha beta f decFreq bottom upper i).1)
            (start c i * (factors alpha beta f decFreq bottom upper i).2) (nIntervals - 1)).1 ::
          (linspace (start c i * (factors alpha beta f decFreq bottom upper i).1)
            (start c i * (factors alpha beta f decFreq bottom upper i).2) (nIntervals - 1)).2) ∧
        (∀ i, start c (i + 1) ∈ round i ∧ ∀ t ∈ round i, lossOf c (start c (i + 1)) ≤ lossOf c t) ∧
        res.seen c = x0 c :: (List.range r).flatMap round := by
  intro res F
  have hin : InnerOK (K := K) (P := K) (if perChannel then foldBest else argBest) := by
    cases perChannel
    · exact argBest_ok
    · exact foldBest_ok
  let cands : K × K → K → K × List K := fun s t => linspace (t * s.1) (t * s.2) (nIntervals - 1)
  obtain ⟨r, hr, h0, h, hno, hyes⟩ := iterRounds_stop cands (if perChannel then foldBest else argBest) hin
    F (symNext decFreq f bottom upper) tol nIter 0
    (iterInit (fun c t => Loss.fin (F c t)) x0 (alpha, beta)) (fun c => F c (x0 c)) (fun c => rfl)
  have hs : schedFrom (symNext decFreq f bottom upper) 0 (alpha, beta) = factors alpha beta f decFreq bottom upper :=
    funext fun i => schedFrom_symNext alpha beta f decFreq hd bottom upper i
  simp only [iterInit, hs] at h hno hyes
  let start : Fin m → ℕ → K := fun c => starts cands (if perChannel then foldBest else argBest)
    (fun t => Loss.fin (F c t)) (factors alpha beta f decFreq bottom upper) (x0 c)
  refine ⟨r, start, stopsAt_of F start tol nIter r hr h0 hno hyes, fun c => ?_⟩
  refine ⟨fun i => (cands (factors alpha beta f decFreq bottom upper i) (start c i)).1 ::
    (cands (factors alpha beta f decFreq bottom upper i) (start c i)).2, rfl, fun i => rfl, fun i => ?_, h c⟩
  obtain ⟨i1, _, i3⟩ := hin (F c) (cands (factors alpha beta f decFreq bottom upper i) (start c i)).1
    (cands (factors alpha beta f decFreq bottom upper i) (start c i)).2
  exact ⟨i1, i3⟩

/-- With a frequency of 2 the range shrinks after rounds 0 and 2. -/
example : factors (1 / 2 : ℚ) 2 (11 / 10, 9 / 10) 2 (9 / 10) (11 / 10) 0 = (1 / 2, 2) ∧
    factors (1 / 2 : ℚ) 2 (11 / 10, 9 / 10) 2 (9 / 10) (11 / 10) 1 = (11 / 20, 9 / 5) ∧
    factors (1 / 2 : ℚ) 2 (11 / 10, 9 / 10) 2 (9 / 10) (11 / 10) 2 = (11 / 20, 9 / 5) ∧
    factors (1 / 2 : ℚ) 2 (11 / 10, 9 / 10) 2 (9 / 10) (11 / 10) 3 = (121 / 200, 81 / 50) := by
  decide +kernel

/-- **C10 (ranges tried).**  After the starting range, the search for a uniform quantizer tries in each round the best
range of the round before (first: the starting range) with its minimum times the first number and its maximum times the
second number of each pair of scalers; it stops like the search for a threshold. -/
theorem C10_uniform_tried {m : ℕ} (perChannel : Bool) (L : List K → List (Option K) → K × K → K)
    (x : Fin m → List K) (x0 : Fin m → K × K) (n : ℕ) (sc0 : K × K) (scs : List (K × K)) (nIter : ℕ) (tol : K) :
    let res := uniIterMin perChannel (fun a b t => .fin (L a b t)) x x0 n sc0 scs nIter tol
    let lossOf : Fin m → K × K → K := fun c p => L (x c) ((x c).map fun v => uniformQuantize v p.1 p.2 n) p
    ∃ (r : ℕ) (start : Fin m → ℕ → K × K), StopsAt lossOf start tol nIter r ∧ ∀ c : Fin m,
      start c 0 = x0 c ∧
        (∀ i, start c (i + 1) ∈ (sc0 :: scs).map (fun s => ((start c i).1 * s.1, (start c i).2 * s.2)) ∧
          ∀ s ∈ sc0 :: scs, lossOf c (start c (i + 1)) ≤ lossOf c ((start c i).1 * s.1, (start c i).2 * s.2)) ∧
        res.seen c = x0 c :: (List.range r).flatMap fun i =>
          (sc0 :: scs).map fun s => ((start c i).1 * s.1, (start c i).2 * s.2) := by
  intro res F
  have hin : InnerOK (K := K) (P := K × K) (if perChannel then foldBest else argBest) := by
    cases perChannel
    · exact argBest_ok
    · exact foldBest_ok
  let cands : Unit → K × K → (K × K) × List (K × K) := fun _ p => uniCands sc0 scs p
  obtain ⟨r, hr, h0, h, hno, hyes⟩ := iterRounds_stop cands (if perChannel then foldBest else argBest) hin
    F (fun _ s => s) tol nIter 0
    (iterInit (fun c t => Loss.fin (F c t)) x0 ()) (fun c => F c (x0 c)) (fun c => rfl)
  have hs : schedFrom (fun (_ : ℕ) (s : Unit) => s) 0 () = fun _ => () := rfl
  simp only [iterInit, hs] at h hno hyes
  let start : Fin m → ℕ → K × K := fun c => starts cands (if perChannel then foldBest else argBest)
    (fun t => Loss.fin (F c t)) (fun _ => ()) (x0 c)
  refine ⟨r, start, stopsAt_of F start tol nIter r hr h0 hno hyes, fun c => ⟨rfl, fun i => ?_, h c⟩⟩
  obtain ⟨i1, _, i3⟩ := hin (F c) (cands () (start c i)).1 (cands () (start c i)).2
  refine ⟨i1, fun s hs => i3 _ ?_⟩
  have : ((start c i).1 * s.1, (start c i).2 * s.2) ∈
      (sc0 :: scs).map (fun s => ((start c i).1 * s.1, (start c i).2 * s.2)) :=
    List.mem_map_of_mem (f := fun s : K × K => ((start c i).1 * s.1, (start c i).2 * s.2)) hs
  exact this

end MCT.Search

namespace MCT.PerChan

open MCT.Search

variable {K : Type} [Field K] [LinearOrder K] [IsStrictOrderedRing K] [FloorRing K]

/-- **C131 (thresholds tried).**  The search per channel with the HMSE error multiplies the thresholds of all channels
by the same evenly spaced factors between the two factors of the round. -/
theorem C131_tried (w : List K) (rows : List (List K)) (x0 : List K) (n nIntervals nIter : ℕ) (alpha beta : K)
    (f : K × K) (decFreq : ℕ) (hd : 0 < decFreq) (bottom upper tol : K) :
    ∃ r, r ≤ nIter ∧ (0 < nIter → 0 < r) ∧ ∃ (start : ℕ → List K) (round : ℕ → List (List K)), start 0 = x0 ∧
      (∀ i, round i = (vecLinspace (factors alpha beta f decFreq bottom upper i) (nIntervals - 1) (start i)).1 ::
        (vecLinspace (factors alpha beta f decFreq bottom upper i) (nIntervals - 1) (start i)).2) ∧
      (∀ i, start (i + 1) ∈ round i) ∧
      (hmseSymIter w rows x0 n nIntervals nIter alpha beta f decFreq bottom upper tol).seen 0 =
        x0 :: (List.range r).flatMap round := by
  let loss : Fin 1 → List K → Loss K := fun _ ts => hmseLoss true w rows.flatten (quantRows rows ts n)
  let cands : K × K → List K → List K × List (List K) := fun s v => vecLinspace s (nIntervals - 1) v
  obtain ⟨r, hr, h0, h⟩ := iterRounds_trace cands foldBest loss (symNext decFreq f bottom upper) tol nIter 0
    (iterInit loss (fun _ => x0) (alpha, beta))
  have hs : schedFrom (symNext decFreq f bottom upper) 0 (alpha, beta) = factors alpha beta f decFreq bottom upper :=
    funext fun i => schedFrom_symNext alpha beta f decFreq hd bottom upper i
  let start := starts cands foldBest (loss 0) (factors alpha beta f decFreq bottom upper) x0
  refine ⟨r, hr, h0, start, fun i => (cands (factors alpha beta f decFreq bottom upper i) (start i)).1 ::
    (cands (factors alpha beta f decFreq bottom upper i) (start i)).2, rfl, fun i => rfl,
    fun i => foldBest_mem _ _ _, ?_⟩
  have := h 0
  simp only [iterInit, hs] at this
  exact this

end MCT.PerChan
