/-
Folding a normalization layer that is called several times.

Sources (all under /repo/model_compression_toolkit/core):
  keras/reader/node_builder.py 227-243                      marking the calls of one layer
  pytorch/reader/graph_builders.py 256-268                  the same
  common/graph/base_node.py 284-290                         is_reused
  common/substitutions/batchnorm_folding.py 90-102, 143-152  backward folding
  common/substitutions/batchnorm_folding.py 228-237          forward folding
  keras/back2framework/instance_builder.py 63-72, 117-123   building the layers
  pytorch/back2framework/pytorch_model_builder.py 299-328   the same
-/
import Mathlib.Data.List.Basic
import Mathlib.Data.List.Range

namespace MCT.FoldShared

set_option linter.unusedSectionVars false
set_option linter.unusedVariables false

variable {L : Type*} [DecidableEq L]

/-! ## Model -/

/-- A node: its place among the calls of the model, the layer it calls and the mark `reuse`. -/
structure Call (L : Type*) where
  pos : Nat
  layer : L
  reuse : Bool
  deriving DecidableEq, Repr

/-- Reading the calls: a call of a layer that was called before is marked.
keras/reader/node_builder.py 231-243, pytorch/reader/graph_builders.py 256-268. -/
def read : List L → List L → Nat → List (Call L)
  | [], _, _ => []
  | l :: ls, seen, k => ⟨k, l, decide (l ∈ seen)⟩ :: read ls (l :: seen) (k + 1)

/-- `is_reused`: the node is marked, or it is the first of several calls, which have a reuse group.
common/graph/base_node.py 284-290, keras/reader/node_builder.py 232-234. -/
def isReused (layers : List L) (j : Nat) : Bool :=
  (read layers [] 0).any (fun c => decide (c.pos = j) &&
    (c.reuse || (read layers [] 0).any (fun d => d.reuse && decide (d.layer = c.layer))))

/-- The test of the backward folding of the normalization at place `j` into the linear layer at place
`conv j`, if it follows one, with the numbers of nodes after the one and before the other.
batchnorm_folding.py 94-102. -/
def folds (layers : List L) (conv : Nat → Option Nat) (next prev : Nat → Nat) (j : Nat) : Bool :=
  match conv j with
  | none => false
  | some i => !isReused layers i && !(decide (1 < next i) || decide (1 < prev j))

/-- The test of the forward folding, which looks at both layers.  batchnorm_folding.py 231-237; the
tests of the kernel are left out. -/
def foldsForward (layers : List L) (conv : Nat → Option Nat) (next prev : Nat → Nat) (j : Nat) : Bool :=
  match conv j with
  | none => false
  | some i => !(isReused layers i || isReused layers j) &&
      !(decide (1 < next j) || decide (1 < prev i))

/-- The nodes left after the nodes of the folded normalizations are removed.  The linear layer takes
a new node, without the mark, which stands for it here.  batchnorm_folding.py 132-152. -/
def remaining (layers : List L) (folded : Nat → Bool) : List (Call L) :=
  (read layers [] 0).filter (fun c => !folded c.pos)

/-- Building: nodes without the mark make a layer, marked ones look for the layer of their group;
`none` for the exceptions (IndexError in Keras, "Reuse group not found" in PyTorch).  The result is,
for each node, the place of the node its layer is built from. -/
def build (calls : List (Call L)) : Option (List (Nat × Nat)) :=
  calls.mapM (fun c =>
    if c.reuse then
      ((calls.filter (fun d => !d.reuse)).find? (fun d => decide (d.layer = c.layer))).map
        (fun d => (c.pos, d.pos))
    else some (c.pos, c.pos))

/-! ## Specification -/

/-- Place `i` is the first call of the layer called at place `j`. -/
def FirstCall (layers : List L) (i j : Nat) : Prop :=
  ∃ l, layers[i]? = some l ∧ layers[j]? = some l ∧ ∀ k < i, layers[k]? ≠ some l

/-! ## Proofs -/

theorem mem_read : ∀ (ls seen : List L) (k : Nat) (c : Call L), c ∈ read ls seen k ↔
    ∃ j, c.pos = k + j ∧ ls[j]? = some c.layer ∧
      c.reuse = decide (c.layer ∈ seen ∨ ∃ i < j, ls[i]? = some c.layer)
  | [], seen, k, c => by simp [read]
  | l :: ls, seen, k, c => by
    unfold read
    rw [List.mem_cons, mem_read ls (l :: seen) (k + 1) c]
    constructor
    · rintro (rfl | ⟨j, h1, h2, h3⟩)
      · exact ⟨0, rfl, rfl, by simp⟩
      · refine ⟨j + 1, by omega, h2, ?_⟩
        rw [h3]
        congr 1
        simp only [List.mem_cons, eq_iff_iff]
        constructor
        · rintro ((h | h) | ⟨i, hi, h⟩)
          · exact Or.inr ⟨0, by omega, by simp [h]⟩
          · exact Or.inl h
          · exact Or.inr ⟨i + 1, by omega, h⟩
        · rintro (h | ⟨i, hi, h⟩)
          · exact Or.inl (Or.inr h)
          · cases i with
            | zero =>
              simp only [List.getElem?_cons_zero, Option.some.injEq] at h
              exact Or.inl (Or.inl h.symm)
            | succ i => exact Or.inr ⟨i, by omega, h⟩
    · rintro ⟨j, h1, h2, h3⟩
      cases j with
      | zero =>
        left
        simp only [List.getElem?_cons_zero, Option.some.injEq] at h2
        obtain ⟨p, q, r⟩ := c
        simp only at h1 h2 h3
        subst h2
        simp only [Nat.not_lt_zero, false_and, exists_false, or_false] at h3
        simp [h1, h3]
      | succ j =>
        right
        refine ⟨j, by omega, h2, ?_⟩
        rw [h3]
        congr 1
        simp only [List.mem_cons, eq_iff_iff]
        constructor
        · rintro (h | ⟨i, hi, h⟩)
          · exact Or.inl (Or.inr h)
          · cases i with
            | zero =>
              simp only [List.getElem?_cons_zero, Option.some.injEq] at h
              exact Or.inl (Or.inl h.symm)
            | succ i => exact Or.inr ⟨i, by omega, h⟩
        · rintro ((h | h) | ⟨i, hi, h⟩)
          · exact Or.inr ⟨0, by omega, by simp [h]⟩
          · exact Or.inl h
          · exact Or.inr ⟨i + 1, by omega, h⟩

theorem mem_read' (layers : List L) (c : Call L) : c ∈ read layers [] 0 ↔
    layers[c.pos]? = some c.layer ∧ c.reuse = decide (∃ i < c.pos, layers[i]? = some c.layer) := by
  rw [mem_read]
  constructor
  · rintro ⟨j, h1, h2, h3⟩
    have : c.pos = j := by omega
    rw [this]
    exact ⟨h2, by rw [h3]; simp⟩
  · rintro ⟨h1, h2⟩
    exact ⟨c.pos, by omega, h1, by rw [h2]; simp⟩

theorem read_pos : ∀ (ls seen : List L) (k : Nat), (read ls seen k).map Call.pos
    = List.range' k ls.length
  | [], _, _ => rfl
  | l :: ls, seen, k => by
    unfold read
    rw [List.map_cons, List.length_cons, List.range'_succ, read_pos ls (l :: seen) (k + 1)]

theorem mem_remaining {layers : List L} {folded : Nat → Bool} {c : Call L} :
    c ∈ remaining layers folded ↔ layers[c.pos]? = some c.layer ∧
      c.reuse = decide (∃ i < c.pos, layers[i]? = some c.layer) ∧ folded c.pos = false := by
  unfold remaining
  rw [List.mem_filter, mem_read']
  simp [and_assoc]

/-- The first call of a layer. -/
theorem exists_first (layers : List L) (l : L) (j : Nat) (h : layers[j]? = some l) :
    ∃ i ≤ j, layers[i]? = some l ∧ ∀ k < i, layers[k]? ≠ some l := by
  induction j using Nat.strong_induction_on with
  | _ j ih =>
    by_cases hex : ∃ i < j, layers[i]? = some l
    · obtain ⟨i, hi, hl⟩ := hex
      obtain ⟨k, hk, h1, h2⟩ := ih i hi hl
      exact ⟨k, by omega, h1, h2⟩
    · refine ⟨j, le_refl _, h, ?_⟩
      intro k hk hl
      exact hex ⟨k, hk, hl⟩

theorem mapM_isSome {α β : Type*} (f : α → Option β) : ∀ (as : List α),
    (as.mapM f).isSome = true ↔ ∀ a ∈ as, (f a).isSome = true
  | [] => by simp
  | a :: as => by
    rw [List.mapM_cons]
    cases ha : f a with
    | none => simp [ha]
    | some b =>
      have ih := mapM_isSome f as
      cases hs : as.mapM f with
      | none =>
        rw [hs] at ih
        simp only [Option.isSome_none, Bool.false_eq_true, false_iff] at ih
        simp only [Option.bind_eq_bind, Option.bind_some, Option.bind_none, Option.isSome_none,
          Bool.false_eq_true, List.mem_cons, forall_eq_or_imp, false_iff, not_and]
        intro _
        exact ih
      | some bs =>
        rw [hs] at ih
        simp only [Option.isSome_some, true_iff] at ih
        simp only [Option.bind_eq_bind, Option.bind_some, Option.pure_def, Option.isSome_some,
          List.mem_cons, forall_eq_or_imp, ha, true_and, true_iff]
        exact ih

theorem mapM_mem {α β : Type*} {f : α → Option β} : ∀ {as : List α} {bs : List β},
    as.mapM f = some bs → ∀ b ∈ bs, ∃ a ∈ as, f a = some b
  | [], bs, h, b, hb => by
    simp at h
    subst h
    simp at hb
  | a :: as, bs, h, b, hb => by
    rw [List.mapM_cons] at h
    obtain ⟨b', hb', h⟩ := Option.bind_eq_some_iff.mp h
    obtain ⟨bs', hbs, h⟩ := Option.bind_eq_some_iff.mp h
    injection h with h
    subst h
    rcases List.mem_cons.mp hb with rfl | hb
    · exact ⟨a, by simp, hb'⟩
    · obtain ⟨x, hx, hfx⟩ := mapM_mem hbs b hb
      exact ⟨x, by simp [hx], hfx⟩

theorem mapM_fst {α β γ : Type*} {f : α → Option β} {u : α → γ} {v : β → γ}
    (hf : ∀ a b, f a = some b → v b = u a) : ∀ {as : List α} {bs : List β},
    as.mapM f = some bs → bs.map v = as.map u
  | [], bs, h => by simp at h; subst h; rfl
  | a :: as, bs, h => by
    rw [List.mapM_cons] at h
    obtain ⟨b', hb', h⟩ := Option.bind_eq_some_iff.mp h
    obtain ⟨bs', hbs, h⟩ := Option.bind_eq_some_iff.mp h
    injection h with h
    subst h
    rw [List.map_cons, List.map_cons, hf a b' hb', mapM_fst hf hbs]

/-- C158: for every model and every choice of folded normalizations, the model can be built exactly
when no first call of a layer is folded of which another call is left. -/
theorem C158_built_iff (layers : List L) (folded : Nat → Bool) :
    (build (remaining layers folded)).isSome = true ↔
      ∀ i j, FirstCall layers i j → folded j = false → folded i = false := by
  unfold build
  rw [mapM_isSome]
  constructor
  · rintro h i j ⟨l, hi, hj, hfirst⟩ hfj
    by_cases hij : i = j
    · rw [hij]; exact hfj
    have hlt : i < j := by
      rcases Nat.lt_trichotomy i j with h1 | h1 | h1
      · exact h1
      · exact absurd h1 hij
      · exact absurd hj (hfirst j h1)
    have hmem : (⟨j, l, true⟩ : Call L) ∈ remaining layers folded :=
      mem_remaining.mpr ⟨hj, by simpa using ⟨i, hlt, hi⟩, hfj⟩
    have := h _ hmem
    simp only [if_true, Option.isSome_map, List.find?_isSome, List.mem_filter] at this
    obtain ⟨d, ⟨hd, hdr⟩, hdl⟩ := this
    obtain ⟨k1, k2, k3⟩ := mem_remaining.mp hd
    simp only [decide_eq_true_eq] at hdl
    rw [hdl] at k1 k2
    have hdr' : d.reuse = false := by simpa using hdr
    rw [hdr'] at k2
    have hno : ¬ ∃ i < d.pos, layers[i]? = some l := by
      intro hex
      rw [decide_eq_true hex] at k2
      simp at k2
    have : d.pos = i := by
      rcases Nat.lt_trichotomy d.pos i with h1 | h1 | h1
      · exact absurd k1 (hfirst _ h1)
      · exact h1
      · exact absurd ⟨i, h1, hi⟩ hno
    rw [← this]
    exact k3
  · intro h c hc
    obtain ⟨k1, k2, k3⟩ := mem_remaining.mp hc
    by_cases hr : c.reuse = true
    · rw [if_pos hr, Option.isSome_map, List.find?_isSome]
      obtain ⟨i, hij, hi, hfirst⟩ := exists_first layers c.layer c.pos k1
      have hfi := h i c.pos ⟨c.layer, hi, k1, hfirst⟩ k3
      refine ⟨⟨i, c.layer, false⟩, ?_, by simp⟩
      rw [List.mem_filter]
      refine ⟨mem_remaining.mpr ⟨hi, ?_, hfi⟩, by simp⟩
      symm
      rw [decide_eq_false_iff_not]
      rintro ⟨k, hk, hl⟩
      exact hfirst k hk hl
    · rw [if_neg hr]
      rfl

/-- C158: when it can be built, exactly the calls that are left are, in their order, and each runs the
layer built from the first call of its layer. -/
theorem C158_owner (layers : List L) (folded : Nat → Bool) {r : List (Nat × Nat)}
    (h : build (remaining layers folded) = some r) :
    r.map Prod.fst = (List.range layers.length).filter (fun j => !folded j) ∧
      ∀ e ∈ r, FirstCall layers e.2 e.1 := by
  unfold build at h
  constructor
  · rw [mapM_fst (u := Call.pos) (v := Prod.fst) ?_ h]
    · unfold remaining
      rw [show (fun c : Call L => !folded c.pos) = (fun j => !folded j) ∘ Call.pos from rfl,
        ← List.filter_map, read_pos, List.range_eq_range']
    · intro c b hb
      by_cases hr : c.reuse = true
      · rw [if_pos hr] at hb
        obtain ⟨d, _, rfl⟩ := Option.map_eq_some_iff.mp hb
        rfl
      · rw [if_neg hr] at hb
        injection hb with hb
        rw [← hb]
  · intro e he
    obtain ⟨c, hc, hce⟩ := mapM_mem h e he
    obtain ⟨k1, k2, k3⟩ := mem_remaining.mp hc
    by_cases hr : c.reuse = true
    · rw [if_pos hr] at hce
      obtain ⟨d, hd, rfl⟩ := Option.map_eq_some_iff.mp hce
      have hdm := List.mem_of_find?_eq_some hd
      have hdl : d.layer = c.layer := by simpa using List.find?_some hd
      rw [List.mem_filter] at hdm
      obtain ⟨d1, d2, d3⟩ := mem_remaining.mp hdm.1
      refine ⟨c.layer, by rw [← hdl]; exact d1, k1, ?_⟩
      intro k hk hl
      have hdr : d.reuse = false := by simpa using hdm.2
      rw [hdr, hdl] at d2
      rw [decide_eq_true ⟨k, hk, hl⟩] at d2
      simp at d2
    · rw [if_neg hr] at hce
      injection hce with hce
      subst hce
      refine ⟨c.layer, k1, k1, ?_⟩
      intro k hk hl
      rw [decide_eq_true ⟨k, hk, hl⟩] at k2
      exact hr k2

theorem isReused_iff (layers : List L) (j : Nat) : isReused layers j = true ↔
    ∃ l, layers[j]? = some l ∧ ∃ i, i ≠ j ∧ layers[i]? = some l := by
  unfold isReused
  simp only [List.any_eq_true, Bool.and_eq_true, Bool.or_eq_true, decide_eq_true_eq]
  constructor
  · rintro ⟨c, hc, rfl, h⟩
    obtain ⟨c1, c2⟩ := (mem_read' layers c).mp hc
    refine ⟨c.layer, c1, ?_⟩
    rcases h with h | ⟨d, hd, hr, hl⟩
    · rw [h] at c2
      obtain ⟨i, hi, hil⟩ := of_decide_eq_true c2.symm
      exact ⟨i, by omega, hil⟩
    · obtain ⟨d1, d2⟩ := (mem_read' layers d).mp hd
      rw [hr] at d2
      obtain ⟨i, hi, hil⟩ := of_decide_eq_true d2.symm
      rw [hl] at d1 hil
      by_cases hdc : d.pos = c.pos
      · exact ⟨i, by omega, hil⟩
      · exact ⟨d.pos, hdc, d1⟩
  · rintro ⟨l, hj, i, hij, hi⟩
    refine ⟨⟨j, l, decide (∃ i < j, layers[i]? = some l)⟩, (mem_read' layers _).mpr ⟨hj, rfl⟩, rfl, ?_⟩
    rcases Nat.lt_or_gt_of_ne hij with h | h
    · left
      simpa using ⟨i, h, hi⟩
    · right
      refine ⟨⟨i, l, true⟩, (mem_read' layers _).mpr ⟨hi, ?_⟩, rfl, rfl⟩
      simpa using ⟨j, h, hj⟩

/-- C158, which normalizations are folded: backward, those that follow a linear layer called once whose
output goes nowhere else; forward, those followed by a linear layer that takes nothing else, where both
are called once. -/
theorem C158_folded_iff (layers : List L) (conv : Nat → Option Nat) (next prev : Nat → Nat) (j : Nat) :
    (folds layers conv next prev j = true ↔ ∃ i, conv j = some i ∧ next i ≤ 1 ∧ prev j ≤ 1 ∧
      ∀ k l, layers[i]? = some l → layers[k]? = some l → k = i) ∧
    (foldsForward layers conv next prev j = true ↔ ∃ i, conv j = some i ∧ next j ≤ 1 ∧ prev i ≤ 1 ∧
      ∀ m, m = i ∨ m = j → ∀ k l, layers[m]? = some l → layers[k]? = some l → k = m) := by
  have key : ∀ i, isReused layers i = false ↔
      ∀ k l, layers[i]? = some l → layers[k]? = some l → k = i := by
    intro i
    rw [← Bool.not_eq_true, isReused_iff]
    constructor
    · intro h k l h1 h2
      by_contra hk
      exact h ⟨l, h1, k, hk, h2⟩
    · rintro h ⟨l, h1, k, hk, h2⟩
      exact hk (h k l h1 h2)
  constructor
  · unfold folds
    cases hc : conv j with
    | none => simp
    | some i =>
      simp only [Bool.and_eq_true, Bool.not_eq_true', Bool.or_eq_false_iff, decide_eq_false_iff_not,
        not_lt, key, Option.some.injEq, exists_eq_left']
      tauto
  · unfold foldsForward
    cases hc : conv j with
    | none => simp
    | some i =>
      simp only [Bool.and_eq_true, Bool.not_eq_true', Bool.or_eq_false_iff, decide_eq_false_iff_not,
        not_lt, key, Option.some.injEq, exists_eq_left']
      constructor
      · rintro ⟨⟨h1, h2⟩, h3, h4⟩
        refine ⟨h3, h4, ?_⟩
        rintro m (rfl | rfl)
        · exact h1
        · exact h2
      · rintro ⟨h3, h4, h5⟩
        exact ⟨⟨h5 i (Or.inl rfl), h5 j (Or.inr rfl)⟩, h3, h4⟩

/-- C158 (forward folding): a normalization that is called several times is never folded forward, so
the model can always be built. -/
theorem C158_forward (layers : List L) (conv : Nat → Option Nat) (next prev : Nat → Nat) :
    (build (remaining layers (foldsForward layers conv next prev))).isSome = true ∧
      ∀ i j, i ≠ j → layers[i]? = layers[j]? → i < layers.length →
        foldsForward layers conv next prev i = false := by
  have key : ∀ i j, i ≠ j → layers[i]? = layers[j]? → i < layers.length →
      foldsForward layers conv next prev i = false := by
    intro i j hij he hlt
    have hr : isReused layers i = true := by
      rw [isReused_iff]
      exact ⟨layers[i], List.getElem?_eq_getElem hlt, j, hij.symm,
        by rw [← he]; exact List.getElem?_eq_getElem hlt⟩
    unfold foldsForward
    cases conv i with
    | none => rfl
    | some k => simp [hr]
  refine ⟨?_, key⟩
  rw [C158_built_iff]
  rintro i j ⟨l, hi, hj, _⟩ hfj
  by_cases hij : i = j
  · rw [hij]; exact hfj
  · exact key i j hij (by rw [hi, hj]) (List.getElem?_eq_some_iff.mp hi).1

/-- C158 (backward folding), violated: the test looks only at the linear layer.  Whenever the first
call of a normalization follows a linear layer it is folded into and another call is not folded, the
model cannot be built. -/
theorem C158_backward_violated (layers : List L) (conv : Nat → Option Nat) (next prev : Nat → Nat)
    {i j c : Nat} (hfirst : FirstCall layers i j) (hc : conv i = some c)
    (halone : ∀ k, k ≠ c → layers[k]? ≠ layers[c]?) (hcl : c < layers.length)
    (hn : next c ≤ 1) (hp : prev i ≤ 1) (hj : conv j = none) :
    build (remaining layers (folds layers conv next prev)) = none := by
  have hfi : folds layers conv next prev i = true := by
    have hr : isReused layers c = false := by
      rw [← Bool.not_eq_true, isReused_iff]
      rintro ⟨l, h1, k, hk, h2⟩
      exact halone k hk (by rw [h1, h2])
    unfold folds
    rw [hc]
    simp [hr]
    omega
  have hfj : folds layers conv next prev j = false := by
    unfold folds
    rw [hj]
  have h := (C158_built_iff layers (folds layers conv next prev)).not.mpr (by
    intro h
    have := h i j hfirst hfj
    rw [hfi] at this
    exact absurd this (by simp))
  cases hb : build (remaining layers (folds layers conv next prev)) with
  | none => rfl
  | some r => rw [hb] at h; simp at h

/-- C158 (backward folding), as far as it holds: when the calls of each layer are folded together or
not at all, the model can be built. -/
theorem C158_backward_partial (layers : List L) (conv : Nat → Option Nat) (next prev : Nat → Nat)
    (h : ∀ i j, i < layers.length → layers[i]? = layers[j]? →
      folds layers conv next prev i = folds layers conv next prev j) :
    (build (remaining layers (folds layers conv next prev))).isSome = true := by
  rw [C158_built_iff]
  rintro i j ⟨l, hi, hj, _⟩ hfj
  rw [h i j (List.getElem?_eq_some_iff.mp hi).1 (by rw [hi, hj])]
  exact hfj

/-! ### The hypotheses are met -/

/-- conv, bn, add, bn: the first call of `bn` follows the convolution, the second one an addition. -/
def layersEx : List String := ["conv", "bn", "add", "bn"]

def convEx : Nat → Option Nat := fun j => if j = 1 then some 0 else none

example : FirstCall layersEx 1 3 ∧ convEx 1 = some 0 ∧ convEx 3 = none ∧
    (∀ k, k ≠ 0 → layersEx[k]? ≠ layersEx[0]?) := by
  refine ⟨⟨"bn", rfl, rfl, ?_⟩, rfl, rfl, ?_⟩
  · intro k hk
    obtain rfl : k = 0 := by omega
    decide
  · intro k hk
    match k, hk with
    | 1, _ => decide
    | 2, _ => decide
    | 3, _ => decide
    | n + 4, _ => simp [layersEx]

example : build (remaining layersEx (folds layersEx convEx (fun _ => 1) (fun _ => 1))) = none := by
  decide +kernel

/-- With the two calls in the other order the model can be built. -/
example : build (remaining ["add", "bn", "conv", "bn"]
    (folds ["add", "bn", "conv", "bn"] (fun j => if j = 3 then some 2 else none) (fun _ => 1)
      (fun _ => 1))) = some [(0, 0), (1, 1), (2, 2)] := by decide +kernel

end MCT.FoldShared
