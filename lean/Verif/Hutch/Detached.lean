/-
Hessian scores of layers that have no derivative.

Sources (under /repo/model_compression_toolkit/core):
  common/hessian/hessian_info_service.py                             52-75 (cache), 217-272 (batches)
  pytorch/hessian/activation_hessian_scores_calculator_pytorch.py    106-140
  keras/hessian/activation_hessian_scores_calculator_keras.py        89-160
Scores per tensor.  Automatic differentiation returns no gradient (`None`) for a tensor on which no output depends
in a differentiable way, for instance one that is only compared or sorted.  The numbers estimated for the other
tensors are the subject of C121; here they are given.
-/
import Mathlib.Data.List.Basic
import Mathlib.Algebra.Order.Ring.Rat
import Mathlib.Algebra.BigOperators.Group.List.Basic

namespace MCT.Detached

set_option linter.unusedVariables false

/-- A layer of the request: the score of every image of the dataset, or no gradient. -/
abbrev Target := Option (ℕ → ℚ)

/-- The arrays the calculators return: one number without axes, or one row for every image. -/
inductive Arr
  | scalar (x : ℚ)
  | rows (l : List ℚ)
  deriving DecidableEq

/-! ### The calculators -/

/-- A layer in PyTorch (106-107, 119-122, 134): the initial value `torch.tensor(0.0)` has no axes, and is kept
without a gradient.  `off` is the number of images in earlier batches, `b` that of this batch. -/
def torchScore (off b : ℕ) : Target → Arr
  | none => .scalar 0
  | some s => .rows ((List.range b).map fun k => s (off + k))

/-- The calculator of PyTorch (93-139). -/
def torchBatch (off b : ℕ) (ts : List Target) : Option (List Arr) := some (ts.map (torchScore off b))

/-- A layer in Keras (95-96, 112-115, 134): the initial value `tf.Variable([0.0])` has one element. -/
def kerasVec (off b : ℕ) : Target → List ℚ
  | none => [0]
  | some s => (List.range b).map fun k => s (off + k)

/-- The calculator of Keras (89-160): after each random vector the values of all layers are stacked (148-149), which
fails unless they have the same length; at the end an axis is added (156). -/
def kerasBatch (off b : ℕ) (ts : List Target) : Option (List Arr) :=
  match ts.map (kerasVec off b) with
  | [] => none
  | v :: rest =>
    if rest.all (fun w => decide (w.length = v.length)) then some ((v :: rest).map Arr.rows) else none

/-! ### The service -/

/-- `HessianCache.update` for a layer (`hessian_info_service.py` 64-72): the new array is put below the saved one;
an array without axes has no first axis. -/
def append (saved : List ℚ) : Arr → Option (List ℚ)
  | .scalar _ => none
  | .rows l => some (saved ++ l)

/-- `HessianCache.update` for all layers (64-73). -/
def update : List (List ℚ) → List Arr → Option (List (List ℚ))
  | c :: cs, a :: as => (append c a).bind fun r => (update cs as).bind fun rs => some (r :: rs)
  | [], [] => some []
  | _, _ => none

/-- The smallest number of samples of a layer, `min(n_nodes_samples)` (74). -/
def least (c : List (List ℚ)) : ℕ :=
  match c.map List.length with
  | [] => 0
  | x :: xs => xs.foldl min x

/-- The loop over batches (`hessian_info_service.py` 244-267) with `count_by_cache`: batches are used until every
layer has `n` samples; without enough of them the request fails. -/
def batches (scorer : ℕ → ℕ → List Target → Option (List Arr)) (ts : List Target) (n : ℕ) :
    List ℕ → ℕ → List (List ℚ) → Option (List (List ℚ))
  | [], _, _ => none
  | b :: bs, off, cache =>
    (scorer off b ts).bind fun as => (update cache as).bind fun c =>
      if n ≤ least c then some (c.map (List.take n)) else batches scorer ts n bs (off + b) c

/-- `fetch_hessian` with an empty cache (`hessian_info_service.py` 140-175, 182-213): the scores of the layers for
`n` images of a dataset with batches of the given sizes. -/
def fetch (scorer : ℕ → ℕ → List Target → Option (List Arr)) (ts : List Target) (n : ℕ) (sizes : List ℕ) :
    Option (List (List ℚ)) :=
  batches scorer ts n sizes 0 (ts.map fun _ => [])

/-! ### Specification -/

/-- What a user expects: for each layer the scores of the first `n` images, zero for a layer that does not
influence the outputs. -/
def expected (ts : List Target) (n : ℕ) : List (List ℚ) :=
  ts.map fun t => (List.range n).map fun k => t.elim 0 fun s => s k

/-! ### Lemmas -/

theorem foldl_min_const (l : List ℕ) (x : ℕ) (h : ∀ y ∈ l, y = x) : l.foldl min x = x := by
  induction l with
  | nil => rfl
  | cons a l ih =>
    rw [List.foldl_cons, h a (by simp), min_self]
    exact ih fun y hy => h y (by simp [hy])

theorem least_expected (ts : List Target) (n : ℕ) (h : ts ≠ []) : least (expected ts n) = n := by
  cases ts with
  | nil => exact absurd rfl h
  | cons t ts =>
    unfold least expected
    simp only [List.map_cons, List.map_map, List.length_map, List.length_range]
    apply foldl_min_const
    intro y hy
    obtain ⟨a, _, rfl⟩ := List.mem_map.mp hy
    simp

/-- The rows of a batch. -/
def batchRows (ts : List Target) (off b : ℕ) : List Arr :=
  ts.map fun t => .rows ((List.range b).map fun k => t.elim 0 fun s => s (off + k))

theorem update_expected (ts : List Target) (off b : ℕ) :
    update (expected ts off) (batchRows ts off b) = some (expected ts (off + b)) := by
  induction ts with
  | nil => rfl
  | cons t ts ih =>
    unfold expected batchRows at ih ⊢
    simp only [List.map_cons, update, append, Option.bind_some, ih]
    congr 2
    rw [List.range_add]
    simp

theorem take_expected (ts : List Target) {n m : ℕ} (h : n ≤ m) :
    (expected ts m).map (List.take n) = expected ts n := by
  unfold expected
  rw [List.map_map]
  apply List.map_congr_left
  intro t _
  simp only [Function.comp, ← List.map_take, List.take_range]
  rw [Nat.min_eq_left h]

theorem batches_expected (scorer : ℕ → ℕ → List Target → Option (List Arr)) (ts : List Target) (n : ℕ)
    (hts : ts ≠ []) (sizes : List ℕ) :
    ∀ off, (∀ o, ∀ b ∈ sizes, scorer o b ts = some (batchRows ts o b)) → off < n →
      batches scorer ts n sizes off (expected ts off) =
        if n ≤ off + sizes.sum then some (expected ts n) else none := by
  induction sizes with
  | nil =>
    intro off _ h
    rw [if_neg (by simp; omega)]
    rfl
  | cons b bs ih =>
    intro off hc h
    unfold batches
    rw [hc off b (by simp)]
    simp only [Option.bind_some, update_expected, least_expected ts _ hts]
    rw [List.sum_cons]
    by_cases hn : n ≤ off + b
    · rw [if_pos hn, if_pos (by omega), take_expected ts hn]
    · rw [if_neg hn, ih (off + b) (fun o x hx => hc o x (by simp [hx])) (by omega), Nat.add_assoc]

theorem fetch_expected (scorer : ℕ → ℕ → List Target → Option (List Arr)) (ts : List Target) (n : ℕ)
    (sizes : List ℕ) (hts : ts ≠ []) (hn : 0 < n)
    (hc : ∀ o, ∀ b ∈ sizes, scorer o b ts = some (batchRows ts o b)) :
    fetch scorer ts n sizes = if n ≤ sizes.sum then some (expected ts n) else none := by
  have h := batches_expected scorer ts n hts sizes 0 hc hn
  have h0 : (expected ts 0) = ts.map fun _ => [] := by unfold expected; simp
  rw [h0, Nat.zero_add] at h
  exact h

theorem torch_rows (ts : List Target) (o b : ℕ) (h : ∀ t ∈ ts, t.isSome) :
    torchBatch o b ts = some (batchRows ts o b) := by
  unfold torchBatch batchRows
  congr 1
  apply List.map_congr_left
  intro t ht
  obtain ⟨s, rfl⟩ := Option.isSome_iff_exists.mp (h t ht)
  rfl

theorem keras_rows (ts : List Target) (o b : ℕ) (hts : ts ≠ []) (h : b = 1 ∨ ∀ t ∈ ts, t.isSome) :
    kerasBatch o b ts = some (batchRows ts o b) := by
  have hv : ∀ t ∈ ts, kerasVec o b t = (List.range b).map fun k => t.elim 0 fun s => s (o + k) := by
    intro t ht
    cases t with
    | some s => rfl
    | none =>
      rcases h with h | h
      · subst h; rfl
      · exact absurd (h none ht) (by simp)
  have hm : ts.map (kerasVec o b) = ts.map fun t => (List.range b).map fun k => t.elim 0 fun s => s (o + k) :=
    List.map_congr_left hv
  unfold kerasBatch batchRows
  rw [hm]
  cases ts with
  | nil => exact absurd rfl hts
  | cons t ts =>
    simp only [List.map_cons]
    rw [if_pos (by simp)]
    simp

theorem update_scalar (c : List (List ℚ)) (as : List Arr) (h : ∃ x, Arr.scalar x ∈ as) : update c as = none := by
  induction as generalizing c with
  | nil => obtain ⟨x, hx⟩ := h; cases hx
  | cons a as ih =>
    cases c with
    | nil => rfl
    | cons c cs =>
      obtain ⟨x, hx⟩ := h
      rcases List.mem_cons.mp hx with rfl | hx
      · rfl
      · unfold update
        rw [ih cs ⟨x, hx⟩]
        cases append c a <;> rfl

/-! ### Theorems -/

/-- C162: when an output depends on every layer, both frameworks return for each layer one score per image, for
every division of the dataset into batches; the request fails exactly when there are too few images. -/
theorem C162_attached (ts : List Target) (n : ℕ) (sizes : List ℕ) (hts : ts ≠ []) (hn : 0 < n)
    (h : ∀ t ∈ ts, t.isSome) :
    fetch torchBatch ts n sizes = (if n ≤ sizes.sum then some (expected ts n) else none) ∧
    fetch kerasBatch ts n sizes = (if n ≤ sizes.sum then some (expected ts n) else none) :=
  ⟨fetch_expected _ ts n sizes hts hn fun o b _ => torch_rows ts o b h,
   fetch_expected _ ts n sizes hts hn fun o b _ => keras_rows ts o b hts (Or.inr h)⟩

example : fetch torchBatch [some fun k => k, some fun k => 2 * k] 3 [2, 2] = some [[0, 1, 2], [0, 2, 4]] := by
  decide +kernel

/-- C162: in Keras, with batches of one image, a layer that does not influence the outputs gets the score zero for
every image, and the others their scores. -/
theorem C162_single (ts : List Target) (n : ℕ) (sizes : List ℕ) (hts : ts ≠ []) (hn : 0 < n)
    (h : ∀ b ∈ sizes, b = 1) :
    fetch kerasBatch ts n sizes = if n ≤ sizes.length then some (expected ts n) else none := by
  rw [fetch_expected _ ts n sizes hts hn fun o b hb => keras_rows ts o b hts (Or.inl (h b hb))]
  have : sizes.sum = sizes.length := by
    have := List.sum_eq_card_nsmul sizes 1 h
    simpa using this
  rw [this]

example : fetch kerasBatch [some fun k => k, none] 3 [1, 1, 1, 1] = some [[0, 1, 2], [0, 0, 0]] := by decide +kernel

/-- C162, violated: in PyTorch a request with a layer that does not influence the outputs always fails. -/
theorem C162_torch_violated (ts : List Target) (n : ℕ) (sizes : List ℕ) (h : none ∈ ts) :
    fetch torchBatch ts n sizes = none := by
  unfold fetch
  cases sizes with
  | nil => rfl
  | cons b bs =>
    unfold batches torchBatch
    rw [Option.bind_some, update_scalar]
    · rfl
    · exact ⟨0, List.mem_map.mpr ⟨none, h, rfl⟩⟩

example : fetch torchBatch [some fun k => k, none] 2 [2] = none := by decide +kernel

/-- C162, violated: in Keras a request in which some layers influence the outputs and some do not fails when the
first batch does not have exactly one image. -/
theorem C162_mixed_violated (ts : List Target) (n b : ℕ) (bs : List ℕ) (h : none ∈ ts) {s : ℕ → ℚ}
    (hs : some s ∈ ts) (hb : b ≠ 1) : fetch kerasBatch ts n (b :: bs) = none := by
  unfold fetch batches
  have : kerasBatch 0 b ts = none := by
    have h0 : [0] ∈ ts.map (kerasVec 0 b) := List.mem_map.mpr ⟨none, h, rfl⟩
    have h1 : kerasVec 0 b (some s) ∈ ts.map (kerasVec 0 b) := List.mem_map.mpr ⟨some s, hs, rfl⟩
    have hl : (kerasVec 0 b (some s)).length = b := by simp [kerasVec]
    unfold kerasBatch
    generalize ts.map (kerasVec 0 b) = vs at h0 h1
    cases vs with
    | nil => rfl
    | cons v rest =>
      refine if_neg fun hall => hb ?_
      have key : ∀ w ∈ v :: rest, w.length = v.length := by
        intro w hw
        rcases List.mem_cons.mp hw with rfl | hw
        · rfl
        · simpa using List.all_eq_true.mp hall w hw
      have e0 := key _ h0
      have e1 := key _ h1
      rw [hl] at e1
      rw [e1, ← e0]
      rfl
  rw [this]
  rfl

example : fetch kerasBatch [some fun k => k, none] 2 [2] = none := by decide +kernel

theorem keras_detached (ts : List Target) (o b : ℕ) (hts : ts ≠ []) (h : ∀ t ∈ ts, t = none) :
    kerasBatch o b ts = kerasBatch o 1 ts := by
  have : ts.map (kerasVec o b) = ts.map (kerasVec o 1) := by
    apply List.map_congr_left
    intro t ht
    rw [h t ht]
    rfl
  unfold kerasBatch
  rw [this]

/-- C162, violated: in Keras, when no layer of the request influences the outputs, every batch counts as one image:
the request fails exactly when there are fewer batches than images wanted. -/
theorem C162_batches_violated (ts : List Target) (n : ℕ) (sizes : List ℕ) (hts : ts ≠ []) (hn : 0 < n)
    (h : ∀ t ∈ ts, t = none) :
    fetch kerasBatch ts n sizes = if n ≤ sizes.length then some (ts.map fun _ => List.replicate n 0) else none := by
  have key : ∀ sizes off off' c, batches kerasBatch ts n sizes off c
      = batches kerasBatch ts n (List.replicate sizes.length 1) off' c := by
    intro sizes
    induction sizes with
    | nil => intro _ _ _; rfl
    | cons b bs ih =>
      intro off off' c
      have e : kerasBatch off b ts = kerasBatch off' 1 ts := by
        rw [keras_detached ts off b hts h]
        have : ts.map (kerasVec off 1) = ts.map (kerasVec off' 1) := by
          apply List.map_congr_left
          intro t ht
          rw [h t ht]
          rfl
        unfold kerasBatch
        rw [this]
      rw [List.length_cons, List.replicate_succ]
      unfold batches
      rw [e]
      congr 1
      funext as
      congr 1
      funext c'
      rw [ih (off + b) (off' + 1) c']
  have := C162_single ts n (List.replicate sizes.length 1) hts hn (fun b hb => List.eq_of_mem_replicate hb)
  unfold fetch at this ⊢
  rw [key sizes 0 0, this, List.length_replicate]
  have he : expected ts n = ts.map fun _ => List.replicate n 0 := by
    unfold expected
    apply List.map_congr_left
    intro t ht
    rw [h t ht]
    simp
  rw [he]

example : fetch kerasBatch [none] 2 [2] = none ∧ fetch kerasBatch [none] 2 [2, 2] = some [[0, 0]] := by
  decide +kernel

end MCT.Detached
