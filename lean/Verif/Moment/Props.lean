import Verif.Moment.Lemmas
import Mathlib.Data.Rat.Defs
import Mathlib.Algebra.Order.Ring.Rat

/-!
# Second moment correction (C136)
-/

namespace MCT.Moment

variable {V K : Type}

/-! ### Which layers are corrected -/

/-- C136 (partial).  Every quantized convolution without constant inputs gets one of the two corrections and never
both: its statistics are corrected if a normalization was inserted after it, otherwise its bias is. -/
theorem C136_one_correction_partial (enabled : Bool) (n : Node) (hk : n.kind = .conv) (hq : n.quantized = true)
    (hp : n.positional = false) :
    biasCorrected enabled true n = !reconstructed enabled n ∧
    (reconstructed enabled n = true ↔ enabled = true ∧ n.reused = false ∧ n.prior = true ∧ n.pot = false) := by
  obtain ⟨k, r, p, po, q, pos⟩ := n
  simp only at hk hq hp
  subst hk hq hp
  cases enabled <;> cases r <;> cases p <;> cases po <;> decide

example : biasCorrected true true ⟨.conv, false, true, false, true, false⟩ = false ∧
    biasCorrected true true ⟨.conv, false, false, false, true, false⟩ = true := by decide

/-- C136 (violated).  A quantized layer with a kernel that is not one of the matched convolutions gets no correction at
all once the second moment correction is enabled, although its bias is corrected without it. -/
theorem C136_dense_violated (n : Node) (hk : n.kind = .dense) (hq : n.quantized = true)
    (hp : n.positional = false) :
    reconstructed true n = false ∧ biasCorrected true true n = false ∧ biasCorrected false true n = true := by
  obtain ⟨k, r, p, po, q, pos⟩ := n
  simp only at hk hq hp
  subst hk hq hp
  cases r <;> cases p <;> cases po <;> decide

/-- C136 (violated).  The normalizations of the model itself are marked like the inserted ones. -/
theorem C136_own_marked_violated (n : Node) (hk : n.kind = .bn) : flag true n = true ∧ reconstructed true n = false := by
  obtain ⟨k, r, p, po, q, pos⟩ := n
  simp only at hk
  subst hk
  simp [flag, reconstructed]

/-! ### The new statistics -/

/-- C136.  For every model, framework and dataset: after the correction, every layer but the marked normalizations is as
before, and the statistics of a marked normalization are the moving averages, from the old ones, of the statistics
of the batches at its argument; the arguments are those in the given model, whatever was updated by earlier
batches. -/
theorem C136_corrected [CommRing K] {fw : Fw} {ds : List V} {ls ls' : List (Layer V K)}
    (h : correct fw ds ls = some ls') :
    ls'.length = ls.length ∧ ∀ (j : Nat) (l : Layer V K), ls[j]? = some l →
      ((∀ b, l.op = .bn b → b.flagged = false) → ls'[j]? = some l) ∧
      (∀ b, l.op = .bn b → b.flagged = true →
        ∃ ss : List ((Nat → K) × (Nat → K)), ss.length = ds.length ∧
          (∀ (i : Nat) (d : V) (s : (Nat → K) × (Nat → K)), ds[i]? = some d → ss[i]? = some s →
            b.batch (seen fw i d ls l j) = some s) ∧
          ls'[j]? = some { l with op := .bn { b with
            mean := fun c => average b.rho (b.mean c) (ss.map fun s => s.1 c)
            var := fun c => average b.rho (b.var c) (ss.map fun s => s.2 c) } }) := by
  obtain ⟨lsN, hr, rfl⟩ := Option.map_eq_some_iff.1 h
  obtain ⟨hlen, hall⟩ := runAll_spec hr
  refine ⟨by simp [hlen], ?_⟩
  intro j l hj
  obtain ⟨hA, hB⟩ := hall j l hj
  have hjl : j < ls.length := (List.getElem?_eq_some_iff.1 hj).1
  have hjN : j < lsN.length := by omega
  have hz : ∀ k, lsN[j]? = some k → (List.zipWith writeBack ls lsN)[j]? = some (writeBack l k) := by
    intro k hk
    simp [List.getElem?_zipWith, hj, hk]
  constructor
  · intro hn
    obtain ⟨k, hk⟩ : ∃ k, lsN[j]? = some k := ⟨_, List.getElem?_eq_getElem hjN⟩
    rw [hz k hk]
    unfold writeBack
    cases hop : l.op with
    | bn b => simp [hn b hop]
    | dropout m => rfl
    | fn f => rfl
  · intro b hb hfl
    have ht : trains fw b = true := by rw [trains_eq, hfl]; rfl
    obtain ⟨ss, h1, h2, h3⟩ := hA b hb ht
    refine ⟨ss, h1, fun i d s hd hs => by simpa using h2 i d s hd hs, ?_⟩
    rw [hz _ h3]
    unfold writeBack
    simp only [hb, hfl, if_true, Option.some.injEq, Layer.mk.injEq, Op.bn.injEq, true_and, Bn.mk.injEq, and_true]
    exact ⟨funext fun c => foldl_mix _ _ c _ _, funext fun c => foldl_mix _ _ c _ _⟩

theorem average_cons [CommRing K] (rho a x : K) (xs : List K) :
    average rho a (x :: xs) = average rho ((1 - rho) * a + rho * x) xs := by
  rw [← foldl_average, ← foldl_average]; rfl

/-- C136.  A moving average stays between the least and the greatest of the old value and the statistics of the
batches. -/
theorem C136_between [Field K] [LinearOrder K] [IsStrictOrderedRing K] {rho : K} (h0 : 0 ≤ rho) (h1 : rho ≤ 1)
    {lo hi : K} (xs : List K) {a : K} (ha : lo ≤ a ∧ a ≤ hi) (hx : ∀ x ∈ xs, lo ≤ x ∧ x ≤ hi) :
    lo ≤ average rho a xs ∧ average rho a xs ≤ hi := by
  induction xs generalizing a with
  | nil => simpa [average] using ha
  | cons x xs ih =>
    rw [average_cons]
    have hx0 := hx x (List.mem_cons_self ..)
    refine ih ?_ fun y hy => hx y (List.mem_cons_of_mem _ hy)
    constructor <;> nlinarith [mul_nonneg h0 (sub_nonneg.2 hx0.1), mul_nonneg h0 (sub_nonneg.2 hx0.2),
      mul_nonneg (sub_nonneg.2 h1) (sub_nonneg.2 ha.1), mul_nonneg (sub_nonneg.2 h1) (sub_nonneg.2 ha.2)]

/-- C136.  How much is corrected: if every batch has the same statistics, the old value keeps the weight
`(1 - rho)` to the power of the number of batches. -/
theorem C136_residual [CommRing K] (rho a x : K) (k : Nat) :
    average rho a (List.replicate k x) - x = (1 - rho) ^ k * (a - x) := by
  induction k generalizing a with
  | zero => simp [average]
  | succ k ih => rw [List.replicate_succ, average_cons, ih, pow_succ]; ring

/-- C136.  If the batches have the old statistics, nothing changes. -/
theorem C136_unchanged [CommRing K] (rho a : K) (k : Nat) : average rho a (List.replicate k a) = a := by
  have := C136_residual rho a a k
  rw [sub_self, mul_zero] at this
  exact sub_eq_zero.1 this

/-- C136 (violated).  With no number of batches do the new statistics reach those of the batches: for the weight of
both frameworks, one tenth, the rest is nine tenths to the power of the number of batches. -/
theorem C136_never_reached_violated [Field K] [LinearOrder K] [IsStrictOrderedRing K] (a x : K) (k : Nat)
    (hne : a ≠ x) : average (1 / 10) a (List.replicate k x) ≠ x ∧
      average (1 / 10) a (List.replicate k x) - x = (9 / 10) ^ k * (a - x) := by
  have h := C136_residual (1 / 10) a x k
  have h9 : (1 - 1 / 10 : K) = 9 / 10 := by norm_num
  rw [h9] at h
  refine ⟨fun he => ?_, h⟩
  rw [he, sub_self] at h
  rcases mul_eq_zero.1 h.symm with h | h
  · exact pow_ne_zero _ (by norm_num) h
  · exact hne (sub_eq_zero.1 h)

/-- C136 (violated).  A normalization of the model itself (it is marked: `C136_own_marked_violated`) changes with a
single batch, at every channel where the mean of the batch is not the stored one. -/
theorem C136_own_changed_violated [Field K] {fw : Fw} {d : V} {ls ls' : List (Layer V K)} {j : Nat}
    {l : Layer V K} {b : Bn V K} (h : correct fw [d] ls = some ls') (hj : ls[j]? = some l) (hb : l.op = .bn b)
    (hf : b.flagged = true) (hrho : b.rho ≠ 0) {s : (Nat → K) × (Nat → K)}
    (hs : b.batch (seen fw 0 d ls l j) = some s) {c : Nat} (hc : s.1 c ≠ b.mean c) :
    ∃ b', ls'[j]? = some { l with op := .bn b' } ∧ b'.mean c ≠ b.mean c := by
  obtain ⟨_, hall⟩ := C136_corrected h
  obtain ⟨ss, h1, h2, h3⟩ := (hall j l hj).2 b hb hf
  match ss, h1 with
  | [t], _ =>
    have ht := h2 0 d t rfl rfl
    rw [hs, Option.some.injEq] at ht
    subst ht
    refine ⟨_, h3, ?_⟩
    simp only [List.map_cons, List.map_nil, average_cons]
    simp only [average, List.length_nil, pow_zero, one_mul, Finset.range_zero, Finset.sum_empty, mul_zero, add_zero]
    intro he
    apply hc
    have : b.rho * (s.1 c - b.mean c) = 0 := by linear_combination he
    rcases mul_eq_zero.1 this with h | h
    · exact absurd h hrho
    · exact sub_eq_zero.1 h

/-! ### Dropout -/

/-- Replace what dropout layers do in training. -/
def setMask (m : Nat → V → V) (l : Layer V K) : Layer V K :=
  match l.op with
  | .dropout _ => { l with op := .dropout m }
  | _ => l

theorem seen_setMask (m : Nat → V → V) (pass : Nat) (d : V) (ls : List (Layer V K)) (l : Layer V K) (j : Nat) :
    seen .torch pass d (ls.map (setMask m)) l j = seen .torch pass d ls l j := by
  unfold seen
  congr 1
  rw [← List.map_take]
  unfold values
  rw [List.foldl_map]
  congr 1
  funext e l'
  unfold setMask
  cases hop : l'.op <;> simp [outOf, hop]

/-- C136.  In PyTorch the arguments from which the statistics are taken do not depend on what dropout layers do in
training. -/
theorem C136_torch_dropout (m : Nat → V → V) (pass : Nat) (d : V) (ls : List (Layer V K)) (l : Layer V K) (j : Nat) :
    seen .torch pass d (ls.map (setMask m)) l j = seen .torch pass d ls l j ∧
    (∀ f, l.op = .dropout f → outOf (K := K) .torch pass d l.op = d) := by
  refine ⟨seen_setMask m pass d ls l j, ?_⟩
  intro f hf
  simp [outOf, hf]

/-- A dropout layer followed by an inserted normalization of one number. -/
def demo (mask : Nat → ℚ → ℚ) : List (Layer ℚ ℚ) :=
  [⟨fun e => e.getLastD 0, .dropout mask⟩,
   ⟨fun e => e.getLastD 0, .bn ⟨fun _ => 4, fun _ => 1, 1 / 10, true, true, fun m _ x => x - m 0, fun _ => 0,
      fun x => some (fun _ => x, fun _ => 1)⟩⟩]

/-- The mean stored in the second layer. -/
def meanOf (r : Option (List (Layer ℚ ℚ))) : Option ℚ :=
  r.bind fun ls => ls[1]?.bind fun l => match l.op with | .bn b => some (b.mean 0) | _ => none

/-- C136 (violated).  In Keras dropout layers drop during the correction: on a batch with exactly the stored mean, the
mean of the normalization moves (here a dropout that zeroes), while in PyTorch it does not. -/
theorem C136_keras_dropout_violated :
    meanOf (correct .keras [4] (demo fun _ _ => 0)) = some (18 / 5) ∧
    meanOf (correct .torch [4] (demo fun _ _ => 0)) = some 4 := by
  constructor <;>
  · simp [meanOf, correct, runAll, runModel, runOp, trains, demo, writeBack, mix]
    norm_num

example : meanOf (correct .torch [5, 3] (demo fun _ _ => 0)) = some (4 * (9 / 10) ^ 2 + 1 / 10 * (9 / 10 * 5 + 3)) := by
  simp [meanOf, correct, runAll, runModel, runOp, trains, demo, writeBack, mix]
  norm_num

end MCT.Moment
