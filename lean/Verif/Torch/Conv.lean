import Verif.Torch.Functional
import Mathlib.Tactic.Ring

/-!
# Model of the replacement of functional convolutions by layers, and of the padding of transposed convolutions

`core/pytorch/graph_substitutions/substitutions/const_holder_conv.py` and `convtranspose_dynamic_padding.py`, with
the construction of the layer from its node (`core/pytorch/back2framework/instance_builder.py:23-41`).

A call is what the reader keeps of it (`Verif/Torch/Model.lean`).  What a convolution computes is a function of its
kernel, its bias and its options, so that two convolutions with equal `Conv` compute the same.
-/

namespace MCT.Torch.Conv

open MCT.Torch MCT.Torch.Functional

variable {V C : Type}

/-! ### Model -/

/-- The two functions. -/
inductive Kind where
  | conv
  | transposed
  deriving DecidableEq

/-- Constants of PyTorch and of the tensors: `shape` of a tensor, the default of an option (stride, padding, ...),
the number a literal stands for as `groups`, and its truth value. -/
structure Env (V C : Type) where
  shape : V → List ℕ
  default : String → C
  groups : C → ℕ
  truth : C → Bool
  one : groups (default "groups") = 1

/-- A convolution: kernel, bias and the value of every option. -/
structure Conv (V C : Type) where
  kernel : V
  bias : Option V
  option : String → C

/-- Axes of output and input channels of the kernel (default_framework_info.py:50-52). -/
def outAxis : Kind → ℕ
  | .conv => 0
  | .transposed => 1

def inAxis : Kind → ℕ
  | .conv => 1
  | .transposed => 0

/-- The node of the layer: attributes, kernel and bias (const_holder_conv.py:61-78).  The attributes are those given by
keyword, the channels and the size of the kernel.  The code that finds kernel and bias (61-72) is that of
functional_linear.py:50-62. -/
structure Node (V C : Type) where
  attr : List (String × C)
  out : ℕ
  inn : ℕ
  size : List ℕ
  kernel : V
  bias : Option V

def toLayer (E : Env V C) (k : Kind) (cv : ℕ → Option V) (c : Call C String) : Option (Node V C) :=
  (linear cv c).map fun wb =>
    { attr := litKwargs c.kwargs, out := (E.shape wb.1).getD (outAxis k) 0, inn := (E.shape wb.1).getD (inAxis k) 0,
      size := (E.shape wb.1).drop 2, kernel := wb.1, bias := wb.2 }

/-- The kernel shape of a new layer: `torch.nn.Conv2d` and `torch.nn.ConvTranspose2d`. -/
def kernelShape (k : Kind) (out inn groups : ℕ) (size : List ℕ) : List ℕ :=
  match k with
  | .conv => out :: inn / groups :: size
  | .transposed => inn :: out / groups :: size

/-- Has a new layer a bias?  Yes, unless the attribute says otherwise. -/
def hasBias (E : Env V C) (attr : List (String × C)) : Bool :=
  match lookK attr "bias" with
  | some l => E.truth l
  | none => true

/-- `node_builder` (instance_builder.py:34-37): the layer is constructed from its attributes; by default it has a bias,
with the random values `rnd`; then kernel and bias are loaded, what is missing keeps its value.  `none`: an error, for
channels the groups do not divide, or tensors of another shape. -/
def build (E : Env V C) (k : Kind) (rnd : V) (n : Node V C) : Option (Conv V C) :=
  let option := fun s => (lookK n.attr s).getD (E.default s)
  let g := E.groups (option "groups")
  if g = 0 ∨ n.inn % g ≠ 0 ∨ n.out % g ≠ 0 then none
  else if E.shape n.kernel ≠ kernelShape k n.out n.inn g n.size then none
  else if hasBias E n.attr then
    match n.bias with
    | some b => if E.shape b = [n.out] then some ⟨n.kernel, some b, option⟩ else none
    | none => some ⟨n.kernel, some rnd, option⟩
  else some ⟨n.kernel, none, option⟩

/-! ### What a call means -/

/-- Parameters of `torch.nn.functional.conv2d` and `conv_transpose2d`. -/
def params : Kind → List String
  | .conv => ["input", "weight", "bias", "stride", "padding", "dilation", "groups"]
  | .transposed => ["input", "weight", "bias", "stride", "padding", "output_padding", "groups", "dilation"]

/-- The convolution a call asks for. -/
def spec (E : Env V C) (k : Kind) (cv : ℕ → Option V) (c : Call C String) : Option (Conv V C) :=
  (tensorOf cv (bound (params k) c "weight")).map fun w =>
    ⟨w, tensorOf cv (bound (params k) c "bias"), fun s => (litOf (bound (params k) c s)).getD (E.default s)⟩

/-- Equal where PyTorch has an option. -/
def Same (k : Kind) (a b : Conv V C) : Prop :=
  a.kernel = b.kernel ∧ a.bias = b.bias ∧ ∀ s ∈ (params k).drop 3, a.option s = b.option s

/-- A call with the input first, a constant kernel, and a constant bias or none. -/
structure Usual (k : Kind) (cv : ℕ → Option V) (c : Call C String) (w : V) : Prop where
  plain : Plain (params k) c
  input : ∃ x rest, c.args = .node x :: rest
  weight : ∃ n, bound (params k) c "weight" = some (.node n) ∧ cv n = some w
  bias : ∀ b, bound (params k) c "bias" = some (.node b) → (cv b).isSome
  options : ∀ s n, s ≠ "weight" → s ≠ "bias" → (s, Arg.node n) ∉ c.kwargs
  positional : ∀ i, 3 ≤ i → ∀ n, c.args[i]? ≠ some (.node n)

/-! ### Proofs -/

theorem params_nodup (k : Kind) : (params k).Nodup := by cases k <;> decide

theorem linear_eq {params : List String} {opts : List String} (hpar : params = "input" :: "weight" :: "bias" :: opts)
    (hp : params.Nodup) {cv : ℕ → Option V} {c : Call C String} (h : Plain params c) {x w : ℕ} {vw : V}
    {rest : List (Arg C)} (hargs : c.args = .node x :: rest)
    (hw : bound params c "weight" = some (.node w)) (hvw : cv w = some vw)
    (hb : ∀ b, bound params c "bias" = some (.node b) → (cv b).isSome)
    (hkey : ∀ k n, (k, Arg.node n) ∈ c.kwargs → k = "weight" ∨ k = "bias")
    (hlit : ∀ i, 3 ≤ i → ∀ n, c.args[i]? ≠ some (.node n)) :
    linear cv c = some (vw, tensorOf cv (bound params c "bias")) := by
  have i1 : params.idxOf "weight" = 1 := by rw [hpar]; simp [List.idxOf_cons]
  have i2 : params.idxOf "bias" = 2 := by rw [hpar]; simp [List.idxOf_cons]
  have hall := allInputs_plain h
  have hnd : (allInputs c).Nodup := by rw [hall]; exact h.once
  -- the nodes among the inputs
  have hmem : ∀ n ∈ allInputs c, n = x ∨ n = w ∨ bound params c "bias" = some (.node n) := by
    intro n hn
    rw [hall, List.mem_append] at hn
    rcases hn with hn | hn
    · obtain ⟨i, hi, e⟩ := List.getElem_of_mem (mem_nodeIds.1 hn)
      have e' : c.args[i]? = some (.node n) := by rw [List.getElem?_eq_getElem hi, e]
      match i, e' with
      | 0, e' => left; rw [hargs] at e'; simpa using e'.symm
      | 1, e' =>
        right; left
        unfold bound at hw
        rw [i1, e'] at hw
        simpa using hw
      | 2, e' =>
        right; right
        unfold bound
        rw [i2, e']
      | i + 3, e' => exact absurd e' (hlit (i + 3) (by omega) n)
    · have hn' := mem_nodeIds.1 hn
      rw [List.mem_map] at hn'
      obtain ⟨⟨k, a⟩, hk, rfl⟩ := hn'
      have hnp : ¬ params.idxOf k < c.args.length := fun h' =>
        not_key hp h h' (List.mem_map.2 ⟨_, hk, rfl⟩)
      have hbk : bound params c k = some (.node n) := by
        unfold bound
        rw [List.getElem?_eq_none (by omega)]
        exact lookK_of_mem h.keys hk
      rcases hkey k _ hk with rfl | rfl
      · right; left
        rw [hw] at hbk
        simpa using hbk.symm
      · right; right; exact hbk
  have hnode : ∀ k n, bound params c k = some (.node n) →
      c.args[params.idxOf k]? = some (.node n) ∨ (k, Arg.node n) ∈ c.kwargs := by
    intro k n hk
    unfold bound at hk
    cases ha : c.args[params.idxOf k]? with
    | some a => rw [ha] at hk; exact Or.inl hk
    | none => rw [ha] at hk; exact Or.inr (lookK_mem hk)
  have hkb : ∀ k n, (k, Arg.node n) ∈ c.kwargs → bound params c k = some (.node n) := by
    intro k n hk
    have hnp : ¬ params.idxOf k < c.args.length := fun h' =>
      not_key hp h h' (List.mem_map.2 ⟨_, hk, rfl⟩)
    unfold bound
    rw [List.getElem?_eq_none (by omega)]
    exact lookK_of_mem h.keys hk
  have hkin : ∀ k n, (k, Arg.node n) ∈ c.kwargs → n ∈ nodeIds (c.kwargs.map (·.2)) := fun k n hk =>
    mem_nodeIds.2 (List.mem_map.2 ⟨_, hk, rfl⟩)
  -- the first input is `x`, and there is a second one
  obtain ⟨y, l, hxy⟩ : ∃ y l, allInputs c = x :: y :: l := by
    rw [hall, hargs]
    rcases hnode _ _ hw with hp' | hk
    · rw [i1, hargs] at hp'
      match rest, hp' with
      | a :: r, hp' =>
        have : a = .node w := by simpa using hp'
        subst this
        exact ⟨w, _, rfl⟩
    · have := hkin _ _ hk
      have hne : nodeIds rest ++ nodeIds (c.kwargs.map (·.2)) ≠ [] := by
        intro e
        rw [(List.append_eq_nil_iff.1 e).2] at this
        cases this
      obtain ⟨y, l, e⟩ := List.exists_cons_of_ne_nil hne
      exact ⟨y, l, by rw [← e]; rfl⟩
  have hy : (cv y).isSome := by
    have hym : y ∈ allInputs c := by rw [hxy]; simp
    have hyx : y ≠ x := by
      rw [hxy, List.nodup_cons] at hnd
      intro e
      exact hnd.1 (e ▸ List.mem_cons_self)
    rcases hmem y hym with e | e | e
    · exact absurd e hyx
    · rw [e, hvw]; rfl
    · exact hb y e
  have hcheck : (weightAt (weightsOf cv c) 1).isNone = false := by
    rw [weightAt_eq h, hxy]
    obtain ⟨v, hv⟩ := Option.isSome_iff_exists.1 hy
    simp [hv]
  have hweight : weightAt (weightsOf cv c) (if Sum.inr "weight" ∈ allocsOf c then
      (allocsOf c).idxOf (.inr "weight") else 1) = some vw := by
    by_cases hin : (Sum.inr "weight" : ℕ ⊕ String) ∈ allocsOf c
    · rw [if_pos hin]
      obtain ⟨n, hn⟩ := (inr_mem_allocs h).1 hin
      have := hkb _ _ hn
      rw [hw] at this
      rw [weightAt_kw h cv hn, ← hvw]
      have : w = n := by simpa using this
      rw [this]
    · rw [if_neg hin]
      rcases hnode _ _ hw with hp' | hk
      · rw [weightAt_eq h, hall, hargs]
        rw [i1, hargs] at hp'
        match rest, hp' with
        | a :: r, hp' =>
          have : a = .node w := by simpa using hp'
          subst this
          simpa [nodeIds] using hvw
      · exact absurd ((inr_mem_allocs h).2 ⟨_, hk⟩) hin
  have hbias : weightAt (weightsOf cv c) (if Sum.inr "bias" ∈ allocsOf c then
      (allocsOf c).idxOf (.inr "bias") else 2) = tensorOf cv (bound params c "bias") := by
    by_cases hin : (Sum.inr "bias" : ℕ ⊕ String) ∈ allocsOf c
    · rw [if_pos hin]
      obtain ⟨n, hn⟩ := (inr_mem_allocs h).1 hin
      rw [weightAt_kw h cv hn, hkb _ _ hn]
      rfl
    · rw [if_neg hin, weightAt_eq h]
      by_cases hbn : ∃ b, bound params c "bias" = some (.node b)
      · obtain ⟨b, hbn⟩ := hbn
        rw [hbn]
        rcases hnode _ _ hbn with hp' | hk
        · rw [i2, hargs] at hp'
          rw [hall, hargs]
          match rest, hp', hargs with
          | a :: b' :: r, hp', hargs =>
            unfold bound at hw
            rw [i1, hargs] at hw
            have e1 : a = .node w := by simpa using hw
            have e2 : b' = .node b := by simpa using hp'
            subst e1 e2
            rfl
        · exact absurd ((inr_mem_allocs h).2 ⟨_, hk⟩) hin
      · have ht : tensorOf cv (bound params c "bias") = none := by
          unfold tensorOf
          split
          · next n e => exact absurd ⟨n, e⟩ hbn
          · rfl
        rw [ht]
        have hl : l = [] := by
          cases l with
          | nil => rfl
          | cons z l =>
            exfalso
            rw [hxy] at hnd hmem
            have hz := hmem z (by simp)
            have hy' := hmem y (by simp)
            simp only [List.nodup_cons, List.mem_cons, not_or] at hnd
            obtain ⟨⟨n1, n2, -⟩, ⟨n3, -⟩, -⟩ := hnd
            rcases hy' with e | e | e
            · exact n1 e.symm
            · rcases hz with e' | e' | e'
              · exact n2 e'.symm
              · exact n3 (e.trans e'.symm)
              · exact hbn ⟨_, e'⟩
            · exact hbn ⟨_, e⟩
        rw [hxy, hl]
        rfl
  unfold linear
  simp only [hcheck, hweight, hbias, Bool.false_eq_true, if_false, Option.map_some]


theorem params_eq (k : Kind) : ∃ opts, params k = "input" :: "weight" :: "bias" :: opts := by
  cases k <;> exact ⟨_, rfl⟩

theorem linear_usual {k : Kind} {cv : ℕ → Option V} {c : Call C String} {w : V} (h : Usual k cv c w) :
    linear cv c = some (w, tensorOf cv (bound (params k) c "bias")) := by
  obtain ⟨opts, hpar⟩ := params_eq k
  obtain ⟨x, rest, hargs⟩ := h.input
  obtain ⟨n, hw, hvw⟩ := h.weight
  refine linear_eq hpar (params_nodup k) h.plain hargs hw hvw h.bias ?_ h.positional
  intro s m hs
  by_contra hne
  rw [not_or] at hne
  exact h.options s m hne.1 hne.2 hs

theorem spec_usual (E : Env V C) {k : Kind} {cv : ℕ → Option V} {c : Call C String} {w : V} (h : Usual k cv c w) :
    spec E k cv c = some ⟨w, tensorOf cv (bound (params k) c "bias"),
      fun s => (litOf (bound (params k) c s)).getD (E.default s)⟩ := by
  obtain ⟨n, hw, hvw⟩ := h.weight
  unfold spec
  rw [hw]
  simp only [tensorOf, hvw, Option.map_some]

/-- A parameter behind the positional arguments is a keyword. -/
theorem bound_kw {k : Kind} {c : Call C String} {s : String} (hs : c.args.length ≤ (params k).idxOf s) :
    bound (params k) c s = lookK c.kwargs s := by
  unfold bound
  rw [List.getElem?_eq_none hs]

theorem idxOf_option {k : Kind} {s : String} (hs : s ∈ (params k).drop 3) : 3 ≤ (params k).idxOf s := by
  cases k <;> simp only [params, List.drop_succ_cons, List.drop_zero, List.mem_cons, List.not_mem_nil, or_false] at hs <;>
    rcases hs with rfl | rfl | rfl | rfl | rfl <;> decide

theorem mem_groups (k : Kind) : "groups" ∈ (params k).drop 3 := by cases k <;> decide

/-- The kernel of a convolution: two axes of channels, and the window. -/
theorem shape_one {k : Kind} {sh : List ℕ} (hsh : 2 ≤ sh.length) :
    sh = kernelShape k (sh.getD (outAxis k) 0) (sh.getD (inAxis k) 0) 1 (sh.drop 2) := by
  match sh, hsh with
  | a :: b :: t, _ => cases k <;> simp [kernelShape, outAxis, inAxis]

theorem build_option {E : Env V C} {k : Kind} {rnd : V} {n : Node V C} {r : Conv V C} (h : build E k rnd n = some r)
    (s : String) : r.option s = (lookK n.attr s).getD (E.default s) := by
  unfold build at h
  simp only at h
  split at h
  · cases h
  split at h
  · cases h
  split at h
  · cases hb : n.bias with
    | some b =>
      rw [hb] at h
      simp only at h
      split at h
      · cases h; rfl
      · cases h
    | none =>
      rw [hb] at h
      cases h
      rfl
  · cases h; rfl

/-! ### C139 -/

/-- **C139 (functional convolutions, partial).**  A call of `conv2d` or `conv_transpose2d` with the input first, constant
kernel and bias by position or keyword in any order (or `bias=None` by keyword), options by keyword and one group
becomes a layer with this kernel, this bias and these options.  Missing, and false: no bias, positional options,
groups. -/
theorem C139_conv_partial (E : Env V C) {k : Kind} {cv : ℕ → Option V} {c : Call C String} {w : V}
    (h : Usual k cv c w) (hpos : c.args.length ≤ 3)
    (hg : E.groups ((litOf (bound (params k) c "groups")).getD (E.default "groups")) = 1)
    (hsh : 2 ≤ (E.shape w).length)
    (hb : (∃ b v, bound (params k) c "bias" = some (.node b) ∧ cv b = some v ∧
        E.shape v = [(E.shape w).getD (outAxis k) 0]) ∨
      (∃ l, ("bias", Arg.lit l) ∈ c.kwargs ∧ E.truth l = false)) (rnd : V) :
    ∃ r s, (toLayer E k cv c).bind (build E k rnd) = some r ∧ spec E k cv c = some s ∧ Same k r s := by
  have hopt : ∀ s ∈ (params k).drop 3, lookK (litKwargs c.kwargs) s = litOf (bound (params k) c s) := by
    intro s hs
    rw [lookK_lit h.plain.keys, bound_kw (le_trans hpos (idxOf_option hs))]
  refine ⟨⟨w, tensorOf cv (bound (params k) c "bias"), fun s => (lookK (litKwargs c.kwargs) s).getD (E.default s)⟩,
    _, ?_, spec_usual E h, ?_⟩
  · unfold toLayer
    rw [linear_usual h, Option.map_some, Option.bind_some]
    unfold build
    simp only [hopt "groups" (mem_groups k), hg]
    rw [if_neg (by simp [Nat.mod_one]), if_neg (by rw [not_not]; exact shape_one hsh)]
    have hlit := lookK_lit h.plain.keys "bias" (kw := c.kwargs)
    rcases hb with ⟨b, v, hb, hv, hbs⟩ | ⟨l, hl, ht⟩
    · have hnone : lookK (litKwargs c.kwargs) "bias" = none := by
        rw [hlit]
        unfold bound at hb
        cases ha : c.args[(params k).idxOf "bias"]? with
        | some a =>
          have hi : (params k).idxOf "bias" < c.args.length := by
            by_contra hx
            rw [List.getElem?_eq_none (by omega)] at ha
            cases ha
          have := not_key (params_nodup k) h.plain hi
          cases hk : lookK c.kwargs "bias" with
          | none => rfl
          | some a => exact absurd (List.mem_map.2 ⟨_, lookK_mem hk, rfl⟩) this
        | none =>
          rw [ha] at hb
          simp only at hb
          rw [hb]
          rfl
      simp only [hasBias, hnone, hb, tensorOf, hv, if_true, hbs]
    · have hk := lookK_of_mem h.plain.keys hl
      have hi : c.args.length ≤ (params k).idxOf "bias" := by
        by_contra hx
        exact not_key (name := "bias") (params_nodup k) h.plain (by omega) (List.mem_map.2 ⟨_, hl, rfl⟩)
      have hnb : hasBias E (litKwargs c.kwargs) = false := by
        unfold hasBias
        rw [hlit, hk]
        exact ht
      simp only [hnb, Bool.false_eq_true, if_false]
      rw [bound_kw hi, hk]
      rfl
  · refine ⟨rfl, rfl, ?_⟩
    intro s hs
    simp only [hopt s hs]

/-- **C139 (violated: no bias).**  A call without bias, or with a positional `None`, becomes a layer with a bias: the
random values a new layer starts with. -/
theorem C139_no_bias_violated (E : Env V C) {k : Kind} {cv : ℕ → Option V} {c : Call C String} {w : V}
    (h : Usual k cv c w) (hg : E.groups ((lookK (litKwargs c.kwargs) "groups").getD (E.default "groups")) = 1)
    (hsh : 2 ≤ (E.shape w).length) (hnb : ∀ n, bound (params k) c "bias" ≠ some (.node n))
    (hkw : "bias" ∉ c.kwargs.map (·.1)) (rnd : V) :
    ∃ r s, (toLayer E k cv c).bind (build E k rnd) = some r ∧ spec E k cv c = some s ∧
      s.bias = none ∧ r.bias = some rnd := by
  have ht : tensorOf cv (bound (params k) c "bias") = none := by
    unfold tensorOf
    split
    · next n e => exact absurd e (hnb n)
    · rfl
  have hnone : lookK (litKwargs c.kwargs) "bias" = none := by
    rw [lookK_lit h.plain.keys]
    cases hk : lookK c.kwargs "bias" with
    | none => rfl
    | some a => exact absurd (List.mem_map.2 ⟨_, lookK_mem hk, rfl⟩) hkw
  refine ⟨⟨w, some rnd, fun s => (lookK (litKwargs c.kwargs) s).getD (E.default s)⟩, _, ?_, spec_usual E h, ht, rfl⟩
  unfold toLayer
  rw [linear_usual h, Option.map_some, Option.bind_some]
  unfold build
  simp only [hg]
  rw [if_neg (by simp [Nat.mod_one]), if_neg (by rw [not_not]; exact shape_one hsh)]
  simp only [hasBias, hnone, ht, if_true]

/-- **C139 (violated: positional options).**  An option given by position is lost: the layer, when it can be made, has
its default. -/
theorem C139_positional_violated (E : Env V C) {k : Kind} {cv : ℕ → Option V} {c : Call C String} {w : V}
    (h : Usual k cv c w) {s : String} {l : C} (ha : c.args[(params k).idxOf s]? = some (.lit l)) (rnd : V)
    {r : Conv V C} (hr : (toLayer E k cv c).bind (build E k rnd) = some r) :
    r.option s = E.default s ∧ ∃ t, spec E k cv c = some t ∧ t.option s = l := by
  have hi : (params k).idxOf s < c.args.length := by
    by_contra hx
    rw [List.getElem?_eq_none (by omega)] at ha
    cases ha
  have hnk := not_key (params_nodup k) h.plain hi
  have hnone : lookK (litKwargs c.kwargs) s = none := by
    rw [lookK_lit h.plain.keys]
    cases hk : lookK c.kwargs s with
    | none => rfl
    | some a => exact absurd (List.mem_map.2 ⟨_, lookK_mem hk, rfl⟩) hnk
  refine ⟨?_, _, spec_usual E h, ?_⟩
  · unfold toLayer at hr
    rw [linear_usual h, Option.map_some, Option.bind_some] at hr
    rw [build_option hr s]
    simp only [hnone, Option.getD_none]
  · simp only [bound, ha, litOf, Option.getD_some]

/-- **C139 (violated: groups).**  A call with several groups never becomes a layer: the layer gets the channels of one
group as its channels, and cannot be made or does not accept the kernel. -/
theorem C139_groups_violated (E : Env V C) {k : Kind} {cv : ℕ → Option V} {c : Call C String} {w : V}
    (h : Usual k cv c w) {l : C} (hg : lookK (litKwargs c.kwargs) "groups" = some l) (h1 : 1 < E.groups l)
    (hsh : ∀ d ∈ E.shape w, 0 < d) (hlen : 2 ≤ (E.shape w).length) (rnd : V) :
    (toLayer E k cv c).bind (build E k rnd) = none := by
  unfold toLayer
  rw [linear_usual h, Option.map_some, Option.bind_some]
  unfold build
  simp only [hg, Option.getD_some]
  split
  · rfl
  · rename_i hc
    rw [if_pos]
    intro hx
    match hw : E.shape w, hlen with
    | a :: b :: t, _ =>
      have ha := hsh a (by rw [hw]; simp)
      have hb := hsh b (by rw [hw]; simp)
      rw [hw] at hx
      cases k <;> simp only [kernelShape, outAxis, inAxis, List.getD_cons_zero, List.getD_cons_succ,
        List.cons.injEq, List.drop_succ_cons, List.drop_zero, true_and, and_true] at hx
      · exact absurd hx (by have := Nat.div_lt_self hb h1; omega)
      · exact absurd hx (by have := Nat.div_lt_self hb h1; omega)

/-- **C139 (violated: the kernel before the input).**  `conv2d(weight=w, input=x)` ends with an error. -/
theorem C139_keyword_order_violated (E : Env V C) (k : Kind) {cv : ℕ → Option V} {c : Call C String} {w x : ℕ}
    {rest : List (String × Arg C)} (h : Plain (params k) c) (ha : c.args = [])
    (hk : c.kwargs = ("weight", .node w) :: ("input", .node x) :: rest) (hx : cv x = none) :
    toLayer E k cv c = none := by
  unfold toLayer linear
  have : weightAt (weightsOf cv c) 1 = none := by
    rw [weightAt_eq h, allInputs_plain h, ha, hk]
    simp [nodeIds, hx]
  simp [this]

/-! ### Witnesses -/

/-- Literals of a call. -/
inductive CLit where
  | none
  | num (n : ℕ)
  deriving DecidableEq

/-- Tensors by name: the kernel 1 has 4 filters on 3 channels, the bias 2 has 4 elements; 3 is a kernel of 4 groups of
one channel. -/
def exE : Env ℕ CLit where
  shape n := match n with
    | 1 => [4, 3, 5, 5]
    | 2 => [4]
    | 3 => [4, 1, 5, 5]
    | _ => []
  default s := if s = "padding" ∨ s = "output_padding" then .num 0 else .num 1
  groups l := match l with
    | .num n => n
    | .none => 0
  truth l := match l with
    | .num n => n != 0
    | .none => false
  one := by decide

/-- `conv2d(x, stride=2, bias=b, weight=w)`. -/
def exCall : Call CLit String :=
  ⟨Option.none, [.node 0], [("stride", .lit (.num 2)), ("bias", .node 2), ("weight", .node 1)]⟩

example : ∃ r s, (toLayer exE .conv exConst exCall).bind (build exE .conv 99) = some r ∧
    spec exE .conv exConst exCall = some s ∧ Same .conv r s ∧ r.option "stride" = .num 2 := by
  obtain ⟨r, s, h1, h2, h3⟩ := C139_conv_partial exE (k := .conv) (cv := exConst) (c := exCall) (w := 1)
    ⟨⟨rfl, by decide, by decide, by decide⟩, ⟨0, [], rfl⟩, ⟨1, by decide, rfl⟩,
      by intro b hb; have : b = 2 := by simpa [bound, params, exCall, lookK, List.idxOf_cons] using hb.symm
         subst this; decide,
      by intro s n h1 h2 h3; simp [exCall] at h3; rcases h3 with ⟨rfl, _⟩ | ⟨rfl, _⟩ <;> contradiction,
      by intro i hi n; rw [List.getElem?_eq_none (by simpa [exCall] using by omega)]; simp⟩
    (by decide) (by decide) (by decide) (.inl ⟨2, 2, by decide, rfl, by decide⟩) 99
  refine ⟨r, s, h1, h2, h3, ?_⟩
  rw [h3.2.2 "stride" (by decide)]
  have : spec exE .conv exConst exCall = some s := h2
  have hs : ∀ t, spec exE .conv exConst exCall = some t → t.option "stride" = .num 2 := by
    intro t ht; cases ht; rfl
  exact hs s this

/-- `conv2d(x, w)`: the bias is whatever the new layer started with. -/
example : ∃ r, (toLayer exE .conv exConst ⟨Option.none, [.node 0, .node 1], []⟩).bind (build exE .conv 99) = some r ∧
    r.bias = some 99 := ⟨_, rfl, rfl⟩

/-- `conv2d(x, w, b, 2)`: the stride is 1. -/
example : ∃ r, (toLayer exE .conv exConst ⟨Option.none, [.node 0, .node 1, .node 2, .lit (.num 2)], []⟩).bind
    (build exE .conv 99) = some r ∧ r.option "stride" = .num 1 := ⟨_, rfl, rfl⟩

/-- `conv2d(x, w, b, groups=4)` for a depthwise kernel: an error. -/
example : (toLayer exE .conv exConst ⟨Option.none, [.node 0, .node 3, .node 2], [("groups", .lit (.num 4))]⟩).bind
    (build exE .conv 99) = Option.none := rfl

/-! ### Transposed convolutions -/

/-- Stride, padding, kernel size and dilation of a transposed convolution along one axis. -/
structure Axis where
  stride : ℤ
  padding : ℤ
  size : ℤ
  dilation : ℤ

/-- The output size of a transposed convolution along an axis (documentation of `torch.nn.ConvTranspose2d`). -/
def outSize (a : Axis) (outputPadding inSize : ℤ) : ℤ :=
  (inSize - 1) * a.stride - 2 * a.padding + a.dilation * (a.size - 1) + outputPadding + 1

/-- `_output_padding` of PyTorch along one axis: the padding that gives the asked size; `none`: a size it cannot
give. -/
def outputPaddingFor (a : Axis) (inSize size : ℤ) : Option ℤ :=
  let least := (inSize - 1) * a.stride - 2 * a.padding + a.dilation * (a.size - 1) + 1
  if size < least ∨ least + a.stride - 1 < size then none else some (size - least)

/-- The padding set by the substitution (convtranspose_dynamic_padding.py:43-60, 76-79) along one axis, from the
traced sizes of input and output; a reused node keeps the padding it has. -/
def newPadding (a : Axis) (reuse : Bool) (have_ inSize size : ℤ) : Option ℤ :=
  if reuse then some have_ else outputPaddingFor a inSize size

/-- What PyTorch accepts as output padding. -/
def Accepted (a : Axis) (op : ℤ) : Prop := 0 ≤ op ∧ op < max a.stride a.dilation

/-- **C139 (transposed convolutions, partial).**  A layer whose output padding is smaller than its stride keeps it.
Missing, and false: output paddings smaller than the dilation only. -/
theorem C139_padding_partial (a : Axis) {op inSize : ℤ} (h0 : 0 ≤ op) (h1 : op < a.stride) (old : ℤ) :
    newPadding a false old inSize (outSize a op inSize) = some op := by
  unfold newPadding outputPaddingFor outSize
  simp only [Bool.false_eq_true, if_false]
  rw [if_neg (by omega)]
  congr 1
  ring

/-- **C139 (asked sizes).**  A layer called with an output size gets the padding that gives this size for the traced
images, and only that one. -/
theorem C139_asked_size (a : Axis) {inSize size op : ℤ} (old : ℤ) (h : newPadding a false old inSize size = some op) :
    outSize a op inSize = size ∧ 0 ≤ op ∧ op < a.stride := by
  unfold newPadding outputPaddingFor at h
  simp only [Bool.false_eq_true, if_false] at h
  split at h
  · cases h
  · simp only [Option.some.injEq] at h
    subst h
    unfold outSize
    constructor
    · ring
    · omega

/-- **C139 (violated: large output paddings).**  A layer PyTorch accepts, with an output padding of at least the stride,
ends with an error. -/
theorem C139_dilation_violated (a : Axis) {op : ℤ} (inSize : ℤ) (h1 : a.stride ≤ op) (old : ℤ) :
    newPadding a false old inSize (outSize a op inSize) = none := by
  unfold newPadding outputPaddingFor outSize
  simp only [Bool.false_eq_true, if_false]
  rw [if_pos (by omega)]

example : Accepted ⟨1, 0, 3, 2⟩ 1 ∧ newPadding ⟨1, 0, 3, 2⟩ false 1 4 (outSize ⟨1, 0, 3, 2⟩ 1 4) = none := by
  constructor
  · unfold Accepted; decide
  · decide

/-- **C139 (violated: several sizes).**  When the model asks for another size of the same input, in a second call of the
layer or for other images, the layer gives the size of the first call for the traced images. -/
theorem C139_other_size_violated (a : Axis) {inSize size size2 op : ℤ} (old : ℤ)
    (h : newPadding a false old inSize size = some op) (hne : size2 ≠ size) :
    newPadding a true op inSize size2 = some op ∧ outSize a op inSize ≠ size2 := by
  refine ⟨rfl, ?_⟩
  rw [(C139_asked_size a old h).1]
  exact fun h => hne h.symm

/-- A stride of 2 and a kernel of 3 give 7 or 8 pixels of 3; after the trace asked for 8, 7 is never given. -/
example : newPadding ⟨2, 0, 3, 1⟩ false 0 3 8 = some 1 ∧ newPadding ⟨2, 0, 3, 1⟩ false 0 3 7 = some 0 ∧
    outSize ⟨2, 0, 3, 1⟩ 1 3 = 8 := by decide

end MCT.Torch.Conv
