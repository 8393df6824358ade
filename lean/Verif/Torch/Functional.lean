/- Replacing calls of `linear`, `layer_norm` and `batch_norm` by layers. -/
import Verif.Torch.Model

namespace MCT.Torch.Functional

open MCT.Torch

variable {V C : Type}

instance : LawfulBEq (ℕ ⊕ String) where
  eq_of_beq {a b} h := by
    cases a <;> cases b <;> simp_all [BEq.beq, Sum.instBEq.beq]
  rfl {a} := by cases a <;> simp [BEq.beq, Sum.instBEq.beq]

/-! Paths are relative to /repo/model_compression_toolkit/core/pytorch/graph_substitutions/substitutions/.
A functional node is what the reader keeps of a call (`allocsOf`, `weightsOf`, `litKwargs`). -/

/-- A positional weight of the node. -/
def weightAt (ws : List (ℕ × V)) (i : ℕ) : Option V := (ws.find? fun w => decide (w.1 = i)).map (·.2)

/-- The weights of the `nn.Linear` node: kernel and bias. `none` is a critical error. functional_linear.py 50-75. -/
def linear (cv : ℕ → Option V) (c : Call C String) : Option (V × Option V) :=
  let ws := weightsOf cv c
  let allocs := allocsOf c
  if (weightAt ws 1).isNone then none
  else
    let wi := if Sum.inr "weight" ∈ allocs then allocs.idxOf (.inr "weight") else 1
    let bi := if Sum.inr "bias" ∈ allocs then allocs.idxOf (.inr "bias") else 2
    (weightAt ws wi).map fun w => (w, weightAt ws bi)

/-- Gamma or beta: `some none` is the default, `none` a `KeyError`. functional_layer_norm.py 58-67,
functional_batch_norm.py 64-73. -/
def scaleOf (cv : ℕ → Option V) (c : Call C String) (name : String) (pos : ℕ) : Option (Option V) :=
  let ws := weightsOf cv c
  let allocs := allocsOf c
  if Sum.inr name ∈ allocs then (weightAt ws (allocs.idxOf (.inr name))).map some
  else if name ∈ (litKwargs c.kwargs).map (·.1) then some none
  else (weightAt ws pos).map some

/-- A normalisation layer: number of normalised dimensions or of channels is given by the input, so that only the
number of normalised dimensions (`dims`) is kept; `none` for gamma and beta are ones and zeros, `none` for epsilon is
the default of PyTorch. -/
structure LayerNorm (V C : Type) where
  dims : ℕ
  gamma : Option V
  beta : Option V
  eps : Option C
  deriving DecidableEq

/-- The `nn.LayerNorm` node. functional_layer_norm.py 69-98: the normalised shape is the last size of the input. -/
def layerNorm (cv : ℕ → Option V) (c : Call C String) : Option (LayerNorm V C) :=
  (scaleOf cv c "weight" 1).bind fun g => (scaleOf cv c "bias" 2).map fun b =>
    ⟨1, g, b, lookK (litKwargs c.kwargs) "eps"⟩

/-- A batch normalisation; `training` normalises by the statistics of the batch. -/
structure BatchNorm (V C : Type) where
  mean : V
  var : V
  gamma : Option V
  beta : Option V
  eps : Option C
  training : Bool
  deriving DecidableEq

/-- The `nn.BatchNorm2d` node of a model that is not trained, for inputs of rank four (others are left).
functional_batch_norm.py 40-110. -/
def batchNorm (cv : ℕ → Option V) (c : Call C String) : Option (BatchNorm V C) :=
  let ws := weightsOf cv c
  (weightAt ws 1).bind fun m => (weightAt ws 2).bind fun v =>
    (scaleOf cv c "weight" 3).bind fun g => (scaleOf cv c "bias" 4).map fun b =>
      ⟨m, v, g, b, lookK (litKwargs c.kwargs) "eps", false⟩

/-! ### What the calls mean -/

/-- The argument of a call for a parameter of a function. -/
def bound (params : List String) (c : Call C String) (name : String) : Option (Arg C) :=
  match c.args[params.idxOf name]? with
  | some a => some a
  | none => lookK c.kwargs name

/-- The tensor of an optional parameter: none for a parameter that is not given or `None`. -/
def tensorOf (cv : ℕ → Option V) : Option (Arg C) → Option V
  | some (.node n) => cv n
  | _ => none

/-- The literal of an optional parameter. -/
def litOf : Option (Arg C) → Option C
  | some (.lit c) => some c
  | _ => none

/-- Parameters of `torch.nn.functional.linear`. -/
def linearParams : List String := ["input", "weight", "bias"]

/-- Parameters of `torch.nn.functional.layer_norm`. -/
def layerNormParams : List String := ["input", "normalized_shape", "weight", "bias", "eps"]

/-- Parameters of `torch.nn.functional.batch_norm`. -/
def batchNormParams : List String :=
  ["input", "running_mean", "running_var", "weight", "bias", "training", "momentum", "eps"]

/-- What a call of `layer_norm` asks for; `len` is the number of sizes of a normalised shape. -/
def layerNormSpec (len : C → ℕ) (cv : ℕ → Option V) (c : Call C String) : Option (LayerNorm V C) :=
  (litOf (bound layerNormParams c "normalized_shape")).map fun s =>
    ⟨len s, tensorOf cv (bound layerNormParams c "weight"), tensorOf cv (bound layerNormParams c "bias"),
      litOf (bound layerNormParams c "eps")⟩

/-- What a call of `batch_norm` asks for; `truth` is the truth value of a literal. -/
def batchNormSpec (truth : C → Bool) (cv : ℕ → Option V) (c : Call C String) : Option (BatchNorm V C) :=
  (tensorOf cv (bound batchNormParams c "running_mean")).bind fun m =>
    (tensorOf cv (bound batchNormParams c "running_var")).map fun v =>
      ⟨m, v, tensorOf cv (bound batchNormParams c "weight"), tensorOf cv (bound batchNormParams c "bias"),
        litOf (bound batchNormParams c "eps"), (litOf (bound batchNormParams c "training")).any truth⟩

/-- A call: no list, every tensor is used once, no parameter is given twice. -/
structure Plain (params : List String) (c : Call C String) : Prop where
  list : c.list = none
  once : (nodeIds c.args ++ nodeIds (c.kwargs.map (·.2))).Nodup
  keys : (c.kwargs.map (·.1)).Nodup
  known : ∀ k ∈ c.kwargs.map (·.1), k ∈ params.drop c.args.length

/-- A scale is given by a constant tensor, or is `None` by keyword. -/
def Given (cv : ℕ → Option V) (params : List String) (c : Call C String) (name : String) : Prop :=
  (∃ n, bound params c name = some (.node n) ∧ (cv n).isSome) ∨
    (∃ l, (name, Arg.lit l) ∈ c.kwargs)

/-! ### Proofs -/

theorem firsts_nodup : ∀ {l : List ℕ}, l.Nodup → firsts l = l
  | [], _ => rfl
  | a :: l, h => by
    rw [List.nodup_cons] at h
    rw [firsts, firsts_nodup h.2, List.filter_eq_self.2]
    intro b hb
    have : b ≠ a := fun e => h.1 (e ▸ hb)
    simpa using this

theorem allInputs_plain {params : List String} {c : Call C String} (h : Plain params c) :
    allInputs c = nodeIds c.args ++ nodeIds (c.kwargs.map (·.2)) := by
  unfold allInputs
  rw [h.list, Option.getD_none, List.nil_append, firsts_nodup h.once]

theorem find_zipIdx (cv : ℕ → Option V) (l : List ℕ) (k i : ℕ) :
    weightAt ((l.zipIdx k).filterMap fun e => (cv e.1).map fun v => (e.2, v)) (k + i) =
      (l[i]?).bind cv := by
  induction l generalizing k i with
  | nil => simp [weightAt]
  | cons a l ih =>
    rw [List.zipIdx_cons, List.filterMap_cons]
    cases i with
    | zero =>
      cases hc : cv a with
      | none =>
        simp only [hc, Option.map_none, Nat.add_zero, List.getElem?_cons_zero, Option.bind_some]
        unfold weightAt
        rw [Option.map_eq_none_iff, List.find?_eq_none]
        intro x hx
        rw [List.mem_filterMap] at hx
        obtain ⟨e, he, h2⟩ := hx
        rw [Option.map_eq_some_iff] at h2
        obtain ⟨v, -, rfl⟩ := h2
        have := List.mk_mem_zipIdx_iff_le_and_getElem?_sub.1 (show (e.1, e.2) ∈ l.zipIdx (k + 1) from he)
        simp only [decide_eq_true_eq]
        omega
      | some v => simp [hc, weightAt]
    | succ i =>
      have := ih (k + 1) i
      rw [show k + 1 + i = k + (i + 1) by omega] at this
      cases hc : cv a with
      | none => simpa [hc] using this
      | some v =>
        simp only [hc, Option.map_some]
        unfold weightAt
        rw [List.find?_cons_of_neg (by simp)]
        simpa [weightAt] using this

/-- The weight at an index is the constant at this place of the inputs. -/
theorem weightAt_eq {params : List String} {c : Call C String} (h : Plain params c) (cv : ℕ → Option V)
    (i : ℕ) : weightAt (weightsOf cv c) i = ((allInputs c)[i]?).bind cv := by
  unfold weightsOf
  rw [h.list]
  have := find_zipIdx cv (allInputs c) 0 i
  rwa [Nat.zero_add] at this

theorem positions_none {n k : ℕ} {args : List (Arg C)} (h : n ∉ nodeIds args) :
    positions n k args = [] := by
  induction args generalizing k with
  | nil => rfl
  | cons a l ih =>
    cases a with
    | lit x => exact ih (by simpa [nodeIds] using h)
    | node i =>
      have h' : n ≠ i ∧ n ∉ nodeIds l := by simpa [nodeIds] using h
      rw [positions, if_neg fun e => h'.1 e.symm]
      exact ih h'.2

theorem positions_one {n : ℕ} {args : List (Arg C)} (hn : (nodeIds args).Nodup)
    (h : n ∈ nodeIds args) : ∀ k, ∃ p, positions n k args = [p] := by
  induction args with
  | nil => simp [nodeIds] at h
  | cons a l ih =>
    intro k
    cases a with
    | lit x => exact ih (by simpa [nodeIds] using hn) (by simpa [nodeIds] using h) (k + 1)
    | node i =>
      have hn' : i ∉ nodeIds l ∧ (nodeIds l).Nodup := by simpa [nodeIds] using hn
      rw [positions]
      by_cases e : i = n
      · rw [if_pos e, positions_none (e ▸ hn'.1)]
        exact ⟨k, rfl⟩
      · rw [if_neg e]
        have h' : n ∈ nodeIds l := by
          have : n = i ∨ n ∈ nodeIds l := by simpa [nodeIds] using h
          exact this.resolve_left fun x => e x.symm
        exact ih hn'.2 h' (k + 1)

/-- The allocations by keyword of a node. -/
def kwAllocs (n : ℕ) (kw : List (String × Arg C)) : List (ℕ ⊕ String) :=
  kw.filterMap fun e => match e.2 with
    | .node i => if i = n then some (.inr e.1) else none
    | .lit _ => none

theorem mem_kwAllocs {n : ℕ} {kw : List (String × Arg C)} {x : ℕ ⊕ String} :
    x ∈ kwAllocs n kw ↔ ∃ k, x = .inr k ∧ (k, Arg.node n) ∈ kw := by
  unfold kwAllocs
  rw [List.mem_filterMap]
  constructor
  · rintro ⟨⟨k, a⟩, he, h⟩
    cases a with
    | lit c => simp at h
    | node i =>
      simp only at h
      split_ifs at h with hi
      cases h
      exact ⟨k, rfl, hi ▸ he⟩
  · rintro ⟨k, rfl, h⟩
    exact ⟨_, h, by simp⟩

theorem kwAllocs_none {n : ℕ} {kw : List (String × Arg C)} (h : n ∉ nodeIds (kw.map (·.2))) :
    kwAllocs n kw = [] := by
  apply List.eq_nil_iff_forall_not_mem.2
  intro x hx
  obtain ⟨k, -, hk⟩ := mem_kwAllocs.1 hx
  apply h
  unfold nodeIds
  rw [List.mem_filterMap]
  exact ⟨.node n, List.mem_map.2 ⟨_, hk, rfl⟩, rfl⟩

theorem kwAllocs_one {n : ℕ} {kw : List (String × Arg C)} (hn : (nodeIds (kw.map (·.2))).Nodup)
    (h : n ∈ nodeIds (kw.map (·.2))) : ∃ k, kwAllocs n kw = [.inr k] ∧ (k, Arg.node n) ∈ kw := by
  induction kw with
  | nil => simp [nodeIds] at h
  | cons e l ih =>
    obtain ⟨k, a⟩ := e
    cases a with
    | lit c =>
      obtain ⟨k', h1, h2⟩ := ih (by simpa [nodeIds] using hn) (by simpa [nodeIds] using h)
      exact ⟨k', by simpa [kwAllocs] using h1, List.mem_cons_of_mem _ h2⟩
    | node i =>
      have hn' : i ∉ nodeIds (l.map (·.2)) ∧ (nodeIds (l.map (·.2))).Nodup := by
        simpa [nodeIds] using hn
      by_cases e : i = n
      · subst e
        refine ⟨k, ?_, List.mem_cons_self⟩
        have := kwAllocs_none hn'.1
        unfold kwAllocs at this ⊢
        rw [List.filterMap_cons]
        simp [this]
      · have h' : n ∈ nodeIds (l.map (·.2)) := by
          have : n = i ∨ n ∈ nodeIds (l.map (·.2)) := by simpa [nodeIds] using h
          exact this.resolve_left fun x => e x.symm
        obtain ⟨k', h1, h2⟩ := ih hn'.2 h'
        refine ⟨k', ?_, List.mem_cons_of_mem _ h2⟩
        unfold kwAllocs at h1 ⊢
        rw [List.filterMap_cons]
        simp [e, h1]

theorem allocs_eq {params : List String} {c : Call C String} (h : Plain params c) :
    allocsOf c = (allInputs c).flatMap fun n => (positions n 0 c.args).map .inl ++ kwAllocs n c.kwargs := by
  unfold allocsOf kwAllocs
  rw [h.list]
  rfl

theorem mem_nodeIds {n : ℕ} {l : List (Arg C)} : n ∈ nodeIds l ↔ Arg.node n ∈ l := by
  unfold nodeIds
  rw [List.mem_filterMap]
  constructor
  · rintro ⟨a, h1, h2⟩
    cases a with
    | lit c => simp at h2
    | node i => cases h2; exact h1
  · intro h
    exact ⟨_, h, rfl⟩

theorem inr_mem_allocs {params : List String} {c : Call C String} (h : Plain params c) {name : String} :
    Sum.inr name ∈ allocsOf c ↔ ∃ n, (name, Arg.node n) ∈ c.kwargs := by
  rw [allocs_eq h]
  simp only [List.mem_flatMap, List.mem_append, List.mem_map, reduceCtorEq, and_false, exists_false,
    false_or, mem_kwAllocs, Sum.inr.injEq]
  constructor
  · rintro ⟨n, -, k, rfl, hk⟩
    exact ⟨n, hk⟩
  · rintro ⟨n, hk⟩
    refine ⟨n, ?_, name, rfl, hk⟩
    rw [allInputs_plain h]
    exact List.mem_append_right _ (mem_nodeIds.2 (List.mem_map.2 ⟨_, hk, rfl⟩))

theorem keys_unique {kw : List (String × Arg C)} (h : (kw.map (·.1)).Nodup) {k : String} {a b : Arg C}
    (ha : (k, a) ∈ kw) (hb : (k, b) ∈ kw) : a = b := by
  have := List.inj_on_of_nodup_map h ha hb rfl
  exact (Prod.mk.inj this).2

/-- The place of a keyword tensor among the allocations is its place among the inputs. -/
theorem idxOf_alloc {params : List String} {c : Call C String} (h : Plain params c) {name : String} {n : ℕ}
    (hk : (name, Arg.node n) ∈ c.kwargs) :
    (allocsOf c).idxOf (.inr name) = (allInputs c).idxOf n := by
  have hall := allInputs_plain h
  have hnd := h.once
  have hone : ∀ m ∈ allInputs c, ∃ g : ℕ ⊕ String,
      (positions m 0 c.args).map .inl ++ kwAllocs m c.kwargs = [g] ∧
        (∀ k, g = .inr k → (k, Arg.node m) ∈ c.kwargs) := by
    intro m hm
    rw [hall, List.mem_append] at hm
    rw [List.nodup_append] at hnd
    rcases hm with hm | hm
    · obtain ⟨p, hp⟩ := positions_one hnd.1 hm 0
      refine ⟨.inl p, ?_, by simp⟩
      rw [hp, kwAllocs_none fun h2 => hnd.2.2 m hm m h2 rfl]
      rfl
    · obtain ⟨k, h1, h2⟩ := kwAllocs_one hnd.2.1 hm
      refine ⟨.inr k, ?_, ?_⟩
      · rw [positions_none fun h3 => hnd.2.2 m h3 m hm rfl, h1]
        rfl
      · intro k' e
        cases e
        exact h2
  have : Nonempty (ℕ ⊕ String) := ⟨.inl 0⟩
  choose! g hg1 hg2 using hone
  have hmap : allocsOf c = (allInputs c).map g := by
    rw [allocs_eq h]
    have : ∀ l : List ℕ, (∀ m ∈ l, m ∈ allInputs c) →
        (l.flatMap fun n => (positions n 0 c.args).map .inl ++ kwAllocs n c.kwargs) = l.map g := by
      intro l hl
      induction l with
      | nil => rfl
      | cons a l ih =>
        rw [List.flatMap_cons, hg1 a (hl a List.mem_cons_self),
          ih fun m hm => hl m (List.mem_cons_of_mem _ hm)]
        rfl
    exact this _ fun m hm => hm
  have hmem : n ∈ allInputs c := by
    rw [hall]
    exact List.mem_append_right _ (mem_nodeIds.2 (List.mem_map.2 ⟨_, hk, rfl⟩))
  have hgn : g n = .inr name := by
    have h1 : Sum.inr name ∈ [g n] := by
      rw [← hg1 n hmem]
      exact List.mem_append_right _ (mem_kwAllocs.2 ⟨name, rfl, hk⟩)
    exact (List.mem_singleton.1 h1).symm
  have hinj : ∀ m ∈ allInputs c, g m = .inr name → m = n := by
    intro m hm e
    have := keys_unique h.keys (hg2 m hm name e) hk
    exact Arg.node.inj this
  rw [hmap]
  have : ∀ l : List ℕ, (∀ m ∈ l, m ∈ allInputs c) → (l.map g).idxOf (.inr name) = l.idxOf n := by
    intro l hl
    induction l with
    | nil => rfl
    | cons a l ih =>
      rw [List.map_cons, List.idxOf_cons, List.idxOf_cons, ih fun m hm => hl m (List.mem_cons_of_mem _ hm)]
      by_cases e : a = n
      · subst e; simp [hgn]
      · have : g a ≠ .inr name := fun e' => e (hinj a (hl a List.mem_cons_self) e')
        have b1 : (g a == .inr name) = false := by simpa using this
        have b2 : (a == n) = false := by simpa using e
        rw [b1, b2]
  exact this _ fun m hm => hm

theorem weightAt_kw {params : List String} {c : Call C String} (h : Plain params c) (cv : ℕ → Option V)
    {name : String} {n : ℕ} (hk : (name, Arg.node n) ∈ c.kwargs) :
    weightAt (weightsOf cv c) ((allocsOf c).idxOf (.inr name)) = cv n := by
  rw [weightAt_eq h, idxOf_alloc h hk]
  have hmem : n ∈ allInputs c := by
    rw [allInputs_plain h]
    exact List.mem_append_right _ (mem_nodeIds.2 (List.mem_map.2 ⟨_, hk, rfl⟩))
  rw [List.getElem?_eq_getElem (List.idxOf_lt_length_of_mem hmem), List.getElem_idxOf, Option.bind_some]

theorem lookK_mem {A : Type} {d : List (String × A)} {k : String} {a : A} (h : lookK d k = some a) :
    (k, a) ∈ d := by
  unfold lookK at h
  rw [Option.map_eq_some_iff] at h
  obtain ⟨e, he, rfl⟩ := h
  have h1 := List.mem_of_find?_eq_some he
  have h2 : e.1 = k := by simpa using List.find?_some he
  rw [← h2]
  exact h1

theorem lookK_of_mem {kw : List (String × Arg C)} (hk : (kw.map (·.1)).Nodup) {k : String} {a : Arg C}
    (h : (k, a) ∈ kw) : lookK kw k = some a := by
  cases hl : lookK kw k with
  | some b => rw [keys_unique hk (lookK_mem hl) h]
  | none =>
    unfold lookK at hl
    rw [Option.map_eq_none_iff, List.find?_eq_none] at hl
    simpa using hl _ h

theorem lookK_lit {kw : List (String × Arg C)} (hk : (kw.map (·.1)).Nodup) (k : String) :
    lookK (litKwargs kw) k = litOf (lookK kw k) := by
  induction kw with
  | nil => rfl
  | cons e l ih =>
    obtain ⟨n, a⟩ := e
    rw [List.map_cons, List.nodup_cons] at hk
    have h1 : ∀ b : Arg C, lookK ((n, b) :: l) k = if n = k then some b else lookK l k := by
      intro b
      unfold lookK
      by_cases e : n = k
      · simp [e]
      · rw [List.find?_cons_of_neg (by simpa using e), if_neg e]
    cases a with
    | lit c =>
      have h2 : litKwargs ((n, Arg.lit c) :: l) = (n, c) :: litKwargs l := by simp [litKwargs]
      rw [h1, h2]
      by_cases e : n = k
      · rw [if_pos e]; simp [lookK, e, litOf]
      · rw [if_neg e, ← ih hk.2]
        unfold lookK
        rw [List.find?_cons_of_neg (by simpa using e)]
    | node i =>
      have h2 : litKwargs (((n, Arg.node i) : String × Arg C) :: l) = litKwargs l := by simp [litKwargs]
      rw [h1, h2, ih hk.2]
      by_cases e : n = k
      · rw [if_pos e]
        subst e
        cases hl : lookK l n with
        | none => rfl
        | some b => exact absurd (List.mem_map.2 ⟨_, lookK_mem hl, rfl⟩) hk.1
      · rw [if_neg e]

theorem not_key {params : List String} (hp : params.Nodup) {c : Call C String} (h : Plain params c)
    {name : String} (hi : params.idxOf name < c.args.length) : name ∉ c.kwargs.map (·.1) := by
  intro hk
  have h1 := h.known name hk
  obtain ⟨j, hj, e⟩ := List.getElem_of_mem h1
  rw [List.getElem_drop] at e
  have : params.idxOf name = c.args.length + j := by
    rw [← e]
    exact hp.idxOf_getElem _ _
  omega

theorem mem_lit {kw : List (String × Arg C)} {k : String} :
    k ∈ (litKwargs kw).map (·.1) ↔ ∃ l, (k, Arg.lit l) ∈ kw := by
  unfold litKwargs
  rw [List.mem_map]
  constructor
  · rintro ⟨e, he, rfl⟩
    rw [List.mem_filterMap] at he
    obtain ⟨⟨n, a⟩, h1, h2⟩ := he
    cases a with
    | node i => simp at h2
    | lit c => cases h2; exact ⟨c, h1⟩
  · rintro ⟨l, h⟩
    exact ⟨(k, l), List.mem_filterMap.2 ⟨_, h, rfl⟩, rfl⟩

/-- Gamma and beta are the tensors asked for, if a positional one is at its fixed place among the tensors. -/
theorem scaleOf_given {params : List String} (hp : params.Nodup) {c : Call C String} (h : Plain params c)
    {cv : ℕ → Option V} {name : String} {pos : ℕ} (hg : Given cv params c name)
    (hpos : ∀ n, c.args[params.idxOf name]? = some (.node n) → (allInputs c)[pos]? = some n) :
    scaleOf cv c name pos = some (tensorOf cv (bound params c name)) := by
  unfold scaleOf
  rcases hg with ⟨n, hb, hc⟩ | ⟨l, hl⟩
  · obtain ⟨v, hv⟩ := Option.isSome_iff_exists.1 hc
    rw [hb]
    unfold bound at hb
    cases ha : c.args[params.idxOf name]? with
    | some a =>
      rw [ha] at hb
      cases hb
      have hlt : params.idxOf name < c.args.length := by
        by_contra h'
        rw [List.getElem?_eq_none (by omega)] at ha
        cases ha
      have hnk := not_key hp h hlt
      rw [if_neg, if_neg, weightAt_eq h, hpos n ha, Option.bind_some, hv]
      · simp [tensorOf, hv]
      · intro h'
        obtain ⟨l, hl⟩ := mem_lit.1 h'
        exact hnk (List.mem_map.2 ⟨_, hl, rfl⟩)
      · intro h'
        obtain ⟨m, hm⟩ := (inr_mem_allocs h).1 h'
        exact hnk (List.mem_map.2 ⟨_, hm, rfl⟩)
    | none =>
      rw [ha] at hb
      have hm := lookK_mem hb
      rw [if_pos ((inr_mem_allocs h).2 ⟨n, hm⟩), weightAt_kw h cv hm, hv]
      simp [tensorOf, hv]
  · have hlt : ¬ params.idxOf name < c.args.length := fun h' =>
      not_key hp h h' (List.mem_map.2 ⟨_, hl, rfl⟩)
    have hb : bound params c name = some (.lit l) := by
      unfold bound
      rw [List.getElem?_eq_none (by omega)]
      exact lookK_of_mem h.keys hl
    rw [hb, if_neg, if_pos (mem_lit.2 ⟨l, hl⟩)]
    · rfl
    · intro h'
      obtain ⟨m, hm⟩ := (inr_mem_allocs h).1 h'
      cases keys_unique h.keys hm hl

/-- A tensor that is given by position is a constant. -/
theorem Given.positional {params : List String} (hp : params.Nodup) {c : Call C String} (h : Plain params c)
    {cv : ℕ → Option V} {name : String} (hg : Given cv params c name)
    (hi : params.idxOf name < c.args.length) : ∃ n, c.args[params.idxOf name]? = some (.node n) := by
  rcases hg with ⟨n, hb, -⟩ | ⟨l, hl⟩
  · unfold bound at hb
    rw [List.getElem?_eq_getElem hi] at hb ⊢
    exact ⟨n, hb⟩
  · exact absurd (List.mem_map.2 ⟨_, hl, rfl⟩) (not_key hp h hi)

/-- C110: a call of `layer_norm` over the last dimension with each of weight and bias a constant tensor (by position
or keyword, in any order) or `None` by keyword, and epsilon not by position, becomes the layer it asks for. -/
theorem C110_layer_norm_partial {len : C → ℕ} {cv : ℕ → Option V} {c : Call C String}
    (h : Plain layerNormParams c) (hx : ∀ a, c.args[0]? = some a → ∃ x, a = .node x)
    (hs : ∃ s, bound layerNormParams c "normalized_shape" = some (.lit s) ∧ len s = 1)
    (hw : Given cv layerNormParams c "weight") (hb : Given cv layerNormParams c "bias")
    (he : c.args.length ≤ 4) :
    ∃ r, layerNormSpec len cv c = some r ∧ layerNorm cv c = some r := by
  have hp : layerNormParams.Nodup := by decide
  obtain ⟨s, hs, hl⟩ := hs
  have i1 : layerNormParams.idxOf "normalized_shape" = 1 := by decide
  have i2 : layerNormParams.idxOf "weight" = 2 := by decide
  have i3 : layerNormParams.idxOf "bias" = 3 := by decide
  have i4 : layerNormParams.idxOf "eps" = 4 := by decide
  have hall := allInputs_plain h
  have shape : ∀ x y w l, c.args = x :: y :: w :: l → ∃ n t, x = .node n ∧ y = .lit t := by
    intro x y w l e
    obtain ⟨n, rfl⟩ := hx x (by rw [e]; rfl)
    unfold bound at hs
    rw [i1, e] at hs
    exact ⟨n, s, rfl, by simpa using hs⟩
  have hw' := scaleOf_given hp h (pos := 1) hw (by
    intro n hn
    rw [i2] at hn
    rw [hall]
    match hc : c.args, hn with
    | x :: y :: w :: l, hn =>
      obtain ⟨n', t, rfl, rfl⟩ := shape x y w l hc
      have : w = .node n := by simpa using hn
      subst this
      rfl)
  have hb' := scaleOf_given hp h (pos := 2) hb (by
    intro n hn
    have hlen : 3 < c.args.length := by
      by_contra h'
      rw [i3, List.getElem?_eq_none (by omega)] at hn
      cases hn
    obtain ⟨m, hm⟩ := hw.positional hp h (by rw [i2]; omega)
    rw [i2] at hm
    rw [i3] at hn
    rw [hall]
    match hc : c.args, hn, hm with
    | x :: y :: w :: b :: l, hn, hm =>
      obtain ⟨n', t, rfl, rfl⟩ := shape x y w _ hc
      have e1 : w = .node m := by simpa using hm
      have e2 : b = .node n := by simpa using hn
      subst e1 e2
      rfl)
  refine ⟨_, by unfold layerNormSpec; rw [hs]; rfl, ?_⟩
  unfold layerNorm
  beta_reduce
  rw [hw', Option.bind_some, hb', Option.map_some]
  simp only [hl]
  congr 2
  rw [lookK_lit h.keys]
  unfold bound
  rw [i4, List.getElem?_eq_none (by omega)]

/-- C110: a call of `batch_norm` with mean and variance by position, each of weight and bias a constant tensor (by
position or keyword, in any order) or `None` by keyword, not training and epsilon not by position, becomes the layer
it asks for (at inference). -/
theorem C110_batch_norm_partial {truth : C → Bool} {cv : ℕ → Option V} {c : Call C String}
    (h : Plain batchNormParams c) {x m v : ℕ} {vm vv : V} {rest : List (Arg C)}
    (hargs : c.args = .node x :: .node m :: .node v :: rest) (hm : cv m = some vm) (hv : cv v = some vv)
    (hw : Given cv batchNormParams c "weight") (hb : Given cv batchNormParams c "bias")
    (ht : (litOf (bound batchNormParams c "training")).any truth = false) (he : c.args.length ≤ 7) :
    ∃ r, batchNormSpec truth cv c = some r ∧ batchNorm cv c = some r := by
  have hp : batchNormParams.Nodup := by decide
  have j1 : batchNormParams.idxOf "running_mean" = 1 := by decide
  have j2 : batchNormParams.idxOf "running_var" = 2 := by decide
  have i2 : batchNormParams.idxOf "weight" = 3 := by decide
  have i3 : batchNormParams.idxOf "bias" = 4 := by decide
  have i4 : batchNormParams.idxOf "eps" = 7 := by decide
  have hall := allInputs_plain h
  have hn : nodeIds c.args = x :: m :: v :: nodeIds rest := by rw [hargs]; rfl
  have hw' := scaleOf_given hp h (pos := 3) hw (by
    intro n hn'
    rw [i2, hargs] at hn'
    rw [hall, hn]
    match rest, hn' with
    | w :: l, hn' =>
      have : w = .node n := by simpa using hn'
      subst this
      rfl)
  have hb' := scaleOf_given hp h (pos := 4) hb (by
    intro n hn'
    have hlen : 4 < c.args.length := by
      by_contra h'
      rw [i3, List.getElem?_eq_none (by omega)] at hn'
      cases hn'
    obtain ⟨w, hw1⟩ := hw.positional hp h (by rw [i2]; omega)
    rw [i2, hargs] at hw1
    rw [i3, hargs] at hn'
    rw [hall, hn]
    match rest, hn', hw1 with
    | w' :: b :: l, hn', hw1 =>
      have e1 : w' = .node w := by simpa using hw1
      have e2 : b = .node n := by simpa using hn'
      subst e1 e2
      rfl)
  have b1 : bound batchNormParams c "running_mean" = some (.node m) := by
    unfold bound; rw [j1, hargs]; rfl
  have b2 : bound batchNormParams c "running_var" = some (.node v) := by
    unfold bound; rw [j2, hargs]; rfl
  refine ⟨_, by unfold batchNormSpec; rw [b1, b2]; simp only [tensorOf, hm, hv]; rfl, ?_⟩
  unfold batchNorm
  have a1 : weightAt (weightsOf cv c) 1 = some vm := by
    rw [weightAt_eq h, hall, hn]; simpa using hm
  have a2 : weightAt (weightsOf cv c) 2 = some vv := by
    rw [weightAt_eq h, hall, hn]; simpa using hv
  simp only [a1, a2, Option.bind_some, hw', hb', Option.map_some, ht]
  congr 2
  rw [lookK_lit h.keys]
  unfold bound
  rw [i4, List.getElem?_eq_none (by omega)]

/-- C110: a call of `linear` with the input by position and weight and bias given as constants by position or keyword
(or no bias) becomes the layer with these weights. -/
theorem C110_linear {cv : ℕ → Option V} {c : Call C String} (h : Plain linearParams c) {x w : ℕ} {vw : V}
    {rest : List (Arg C)} (hargs : c.args = .node x :: rest)
    (hw : bound linearParams c "weight" = some (.node w)) (hvw : cv w = some vw)
    (hb : ∀ b, bound linearParams c "bias" = some (.node b) → (cv b).isSome) (hlen : c.args.length ≤ 3) :
    linear cv c = some (vw, tensorOf cv (bound linearParams c "bias")) := by
  have hp : linearParams.Nodup := by decide
  have i1 : linearParams.idxOf "weight" = 1 := by decide
  have i2 : linearParams.idxOf "bias" = 2 := by decide
  have hall := allInputs_plain h
  have hnd : (allInputs c).Nodup := by rw [hall]; exact h.once
  have hkey : ∀ k a, (k, a) ∈ c.kwargs → k = "weight" ∨ k = "bias" := by
    intro k a hk
    have h1 := h.known k (List.mem_map.2 ⟨_, hk, rfl⟩)
    rw [hargs] at h1
    have h2 : k ∈ linearParams.drop 1 := by
      have : linearParams.drop (List.length (Arg.node x :: rest)) =
          (linearParams.drop 1).drop rest.length := by
        rw [List.drop_drop, List.length_cons, Nat.add_comm]
      rw [this] at h1
      exact List.mem_of_mem_drop h1
    simpa [linearParams] using h2
  -- the nodes among the inputs
  have hmem : ∀ n ∈ allInputs c, n = x ∨ n = w ∨ bound linearParams c "bias" = some (.node n) := by
    intro n hn
    rw [hall, List.mem_append] at hn
    rcases hn with hn | hn
    · obtain ⟨i, hi, e⟩ := List.getElem_of_mem (mem_nodeIds.1 hn)
      have e' : c.args[i]? = some (.node n) := by rw [List.getElem?_eq_getElem hi, e]
      match i, e' with
      | 0, e' => left; rw [hargs] at e'; simpa using e'.symm
      | 1, e' =>
        right; left
        unfold bound at hw
        rw [i1, e'] at hw
        simpa using hw
      | 2, e' =>
        right; right
        unfold bound
        rw [i2, e']
      | i + 3, e' => exact absurd hi (by omega)
    · have hn' := mem_nodeIds.1 hn
      rw [List.mem_map] at hn'
      obtain ⟨⟨k, a⟩, hk, rfl⟩ := hn'
      have hnp : ¬ linearParams.idxOf k < c.args.length := fun h' =>
        not_key hp h h' (List.mem_map.2 ⟨_, hk, rfl⟩)
      have hbk : bound linearParams c k = some (.node n) := by
        unfold bound
        rw [List.getElem?_eq_none (by omega)]
        exact lookK_of_mem h.keys hk
      rcases hkey k _ hk with rfl | rfl
      · right; left
        rw [hw] at hbk
        simpa using hbk.symm
      · right; right; exact hbk
  have hnode : ∀ k n, bound linearParams c k = some (.node n) →
      c.args[linearParams.idxOf k]? = some (.node n) ∨ (k, Arg.node n) ∈ c.kwargs := by
    intro k n hk
    unfold bound at hk
    cases ha : c.args[linearParams.idxOf k]? with
    | some a => rw [ha] at hk; exact Or.inl hk
    | none => rw [ha] at hk; exact Or.inr (lookK_mem hk)
  have hkb : ∀ k n, (k, Arg.node n) ∈ c.kwargs → bound linearParams c k = some (.node n) := by
    intro k n hk
    have hnp : ¬ linearParams.idxOf k < c.args.length := fun h' =>
      not_key hp h h' (List.mem_map.2 ⟨_, hk, rfl⟩)
    unfold bound
    rw [List.getElem?_eq_none (by omega)]
    exact lookK_of_mem h.keys hk
  have hkin : ∀ k n, (k, Arg.node n) ∈ c.kwargs → n ∈ nodeIds (c.kwargs.map (·.2)) := fun k n hk =>
    mem_nodeIds.2 (List.mem_map.2 ⟨_, hk, rfl⟩)
  -- the first input is `x`, and there is a second one
  obtain ⟨y, l, hxy⟩ : ∃ y l, allInputs c = x :: y :: l := by
    rw [hall, hargs]
    rcases hnode _ _ hw with hp' | hk
    · rw [i1, hargs] at hp'
      match rest, hp' with
      | a :: r, hp' =>
        have : a = .node w := by simpa using hp'
        subst this
        exact ⟨w, _, rfl⟩
    · have := hkin _ _ hk
      have hne : nodeIds rest ++ nodeIds (c.kwargs.map (·.2)) ≠ [] := by
        intro e
        rw [(List.append_eq_nil_iff.1 e).2] at this
        cases this
      obtain ⟨y, l, e⟩ := List.exists_cons_of_ne_nil hne
      exact ⟨y, l, by rw [← e]; rfl⟩
  have hy : (cv y).isSome := by
    have hym : y ∈ allInputs c := by rw [hxy]; simp
    have hyx : y ≠ x := by
      rw [hxy, List.nodup_cons] at hnd
      intro e
      exact hnd.1 (e ▸ List.mem_cons_self)
    rcases hmem y hym with e | e | e
    · exact absurd e hyx
    · rw [e, hvw]; rfl
    · exact hb y e
  have hcheck : (weightAt (weightsOf cv c) 1).isNone = false := by
    rw [weightAt_eq h, hxy]
    obtain ⟨v, hv⟩ := Option.isSome_iff_exists.1 hy
    simp [hv]
  have hweight : weightAt (weightsOf cv c) (if Sum.inr "weight" ∈ allocsOf c then
      (allocsOf c).idxOf (.inr "weight") else 1) = some vw := by
    by_cases hin : (Sum.inr "weight" : ℕ ⊕ String) ∈ allocsOf c
    · rw [if_pos hin]
      obtain ⟨n, hn⟩ := (inr_mem_allocs h).1 hin
      have := hkb _ _ hn
      rw [hw] at this
      rw [weightAt_kw h cv hn, ← hvw]
      have : w = n := by simpa using this
      rw [this]
    · rw [if_neg hin]
      rcases hnode _ _ hw with hp' | hk
      · rw [weightAt_eq h, hall, hargs]
        rw [i1, hargs] at hp'
        match rest, hp' with
        | a :: r, hp' =>
          have : a = .node w := by simpa using hp'
          subst this
          simpa [nodeIds] using hvw
      · exact absurd ((inr_mem_allocs h).2 ⟨_, hk⟩) hin
  have hbias : weightAt (weightsOf cv c) (if Sum.inr "bias" ∈ allocsOf c then
      (allocsOf c).idxOf (.inr "bias") else 2) = tensorOf cv (bound linearParams c "bias") := by
    by_cases hin : (Sum.inr "bias" : ℕ ⊕ String) ∈ allocsOf c
    · rw [if_pos hin]
      obtain ⟨n, hn⟩ := (inr_mem_allocs h).1 hin
      rw [weightAt_kw h cv hn, hkb _ _ hn]
      rfl
    · rw [if_neg hin, weightAt_eq h]
      by_cases hbn : ∃ b, bound linearParams c "bias" = some (.node b)
      · obtain ⟨b, hbn⟩ := hbn
        rw [hbn]
        rcases hnode _ _ hbn with hp' | hk
        · rw [i2, hargs] at hp'
          rw [hall, hargs]
          match rest, hp', hargs with
          | a :: b' :: r, hp', hargs =>
            unfold bound at hw
            rw [i1, hargs] at hw
            have e1 : a = .node w := by simpa using hw
            have e2 : b' = .node b := by simpa using hp'
            subst e1 e2
            rfl
        · exact absurd ((inr_mem_allocs h).2 ⟨_, hk⟩) hin
      · have ht : tensorOf cv (bound linearParams c "bias") = none := by
          unfold tensorOf
          split
          · next n e => exact absurd ⟨n, e⟩ hbn
          · rfl
        rw [ht]
        have hl : l = [] := by
          cases l with
          | nil => rfl
          | cons z l =>
            exfalso
            rw [hxy] at hnd hmem
            have hz := hmem z (by simp)
            have hy' := hmem y (by simp)
            simp only [List.nodup_cons, List.mem_cons, not_or] at hnd
            obtain ⟨⟨n1, n2, -⟩, ⟨n3, -⟩, -⟩ := hnd
            rcases hy' with e | e | e
            · exact n1 e.symm
            · rcases hz with e' | e' | e'
              · exact n2 e'.symm
              · exact n3 (e.trans e'.symm)
              · exact hbn ⟨_, e'⟩
            · exact hbn ⟨_, e⟩
        rw [hxy, hl]
        rfl
  unfold linear
  simp only [hcheck, hweight, hbias, Bool.false_eq_true, if_false, Option.map_some]

/-! ### Witnesses -/

/-- Literals of calls. -/
inductive Lit where
  | none
  | sizes (l : List ℕ)
  | milli (n : ℕ)
  | bool (b : Bool)
  deriving DecidableEq

/-- The number of sizes. -/
def Lit.len : Lit → ℕ
  | .sizes l => l.length
  | _ => 0

/-- The truth value. -/
def Lit.truth : Lit → Bool
  | .bool b => b
  | _ => false

/-- Node 0 is an activation, the others are constants named by their numbers. -/
def exConst (n : ℕ) : Option ℕ := if n = 0 then Option.none else some n

/-- `linear(x, bias=b, weight=w)`. -/
def exLinear : Call Lit String := ⟨Option.none, [.node 0], [("bias", .node 2), ("weight", .node 1)]⟩

example : Plain linearParams exLinear ∧ bound linearParams exLinear "weight" = some (.node 1) ∧
    linear exConst exLinear = some (1, some 2) := by
  refine ⟨⟨rfl, by decide, by decide, by decide⟩, by decide, by decide⟩

example : linear exConst (⟨Option.none, [.node 0, .node 1], []⟩ : Call Lit String) = some (1, Option.none) := by decide

/-- `layer_norm(x, [8], bias=b, weight=w, eps=0.01)`. -/
def exLayerNorm : Call Lit String :=
  ⟨Option.none, [.node 0, .lit (.sizes [8])], [("bias", .node 2), ("weight", .node 1), ("eps", .lit (.milli 10))]⟩

example : ∃ r, layerNormSpec Lit.len exConst exLayerNorm = some r ∧ layerNorm exConst exLayerNorm = some r :=
  C110_layer_norm_partial ⟨rfl, by decide, by decide, by decide⟩ (fun a h => ⟨0, by simpa [exLayerNorm] using h.symm⟩)
    ⟨.sizes [8], by decide, rfl⟩ (Or.inl ⟨1, by decide, rfl⟩) (Or.inl ⟨2, by decide, rfl⟩) (by decide)

example : layerNorm exConst exLayerNorm = some ⟨1, some 1, some 2, some (.milli 10)⟩ := by decide

/-- `batch_norm(x, m, v, w, bias=None, eps=0.01)`. -/
def exBatchNorm : Call Lit String :=
  ⟨Option.none, [.node 0, .node 1, .node 2, .node 3], [("bias", .lit .none), ("eps", .lit (.milli 10))]⟩

example : ∃ r, batchNormSpec Lit.truth exConst exBatchNorm = some r ∧ batchNorm exConst exBatchNorm = some r :=
  C110_batch_norm_partial (rest := [.node 3]) ⟨rfl, by decide, by decide, by decide⟩ rfl rfl rfl
    (Or.inl ⟨3, by decide, rfl⟩) (Or.inr ⟨.none, by decide⟩) (by decide) (by decide)

example : batchNorm exConst exBatchNorm = some ⟨1, 2, some 3, Option.none, some (.milli 10), false⟩ := by decide

/-- C110 fails for a layer norm over two dimensions: only the last one is normalised. -/
theorem C110_two_dims_violated : ∃ c : Call Lit String, Plain layerNormParams c ∧
    layerNormSpec Lit.len exConst c = some ⟨2, Option.none, Option.none, Option.none⟩ ∧
    layerNorm exConst c = some ⟨1, Option.none, Option.none, Option.none⟩ :=
  ⟨⟨Option.none, [.node 0, .lit (.sizes [4, 8])], [("weight", .lit .none), ("bias", .lit .none)]⟩,
    ⟨rfl, by decide, by decide, by decide⟩, by decide, by decide⟩

/-- C110 fails for an epsilon by position: the layer has the default one. -/
theorem C110_positional_eps_violated : ∃ c : Call Lit String, Plain layerNormParams c ∧
    layerNormSpec Lit.len exConst c = some ⟨1, some 1, some 2, some (.milli 10)⟩ ∧
    layerNorm exConst c = some ⟨1, some 1, some 2, Option.none⟩ :=
  ⟨⟨Option.none, [.node 0, .lit (.sizes [8]), .node 1, .node 2, .lit (.milli 10)], []⟩,
    ⟨rfl, by decide, by decide, by decide⟩, by decide, by decide⟩

/-- C110 fails for a layer norm with a bias only: the bias is used as weight too. -/
theorem C110_bias_only_violated : ∃ c : Call Lit String, Plain layerNormParams c ∧
    layerNormSpec Lit.len exConst c = some ⟨1, Option.none, some 2, Option.none⟩ ∧
    layerNorm exConst c = some ⟨1, some 2, some 2, Option.none⟩ :=
  ⟨⟨Option.none, [.node 0, .lit (.sizes [8])], [("bias", .node 2)]⟩,
    ⟨rfl, by decide, by decide, by decide⟩, by decide, by decide⟩

/-- C110 fails for a layer norm with no weight and no bias: the conversion raises. -/
theorem C110_defaults_violated : ∃ c : Call Lit String, Plain layerNormParams c ∧
    layerNormSpec Lit.len exConst c = some ⟨1, Option.none, Option.none, Option.none⟩ ∧ layerNorm exConst c = Option.none :=
  ⟨⟨Option.none, [.node 0, .lit (.sizes [8])], []⟩, ⟨rfl, by decide, by decide, by decide⟩, by decide, by decide⟩

/-- C110 fails for a batch norm that asks for the statistics of the batch: the layer uses the running ones. -/
theorem C110_training_violated : ∃ c : Call Lit String, Plain batchNormParams c ∧
    batchNormSpec Lit.truth exConst c = some ⟨1, 2, some 3, some 4, Option.none, true⟩ ∧
    batchNorm exConst c = some ⟨1, 2, some 3, some 4, Option.none, false⟩ :=
  ⟨⟨Option.none, [.node 0, .node 1, .node 2, .node 3, .node 4, .lit (.bool true)], []⟩,
    ⟨rfl, by decide, by decide, by decide⟩, by decide, by decide⟩

/-- C110 fails for a batch norm with the variance before the mean, by keyword: they are swapped. -/
theorem C110_swapped_violated : ∃ c : Call Lit String, Plain batchNormParams c ∧
    batchNormSpec Lit.truth exConst c = some ⟨1, 2, some 3, some 4, Option.none, false⟩ ∧
    batchNorm exConst c = some ⟨2, 1, some 3, some 4, Option.none, false⟩ :=
  ⟨⟨Option.none, [.node 0], [("running_var", .node 2), ("running_mean", .node 1), ("weight", .node 3), ("bias", .node 4)]⟩,
    ⟨rfl, by decide, by decide, by decide⟩, by decide, by decide⟩

/-- C110 fails for a batch norm with `None` as positional weight: the conversion raises. -/
theorem C110_positional_none_violated : ∃ c : Call Lit String, Plain batchNormParams c ∧
    batchNormSpec Lit.truth exConst c = some ⟨1, 2, Option.none, some 4, Option.none, false⟩ ∧
    batchNorm exConst c = Option.none :=
  ⟨⟨Option.none, [.node 0, .node 1, .node 2, .lit .none, .node 4], []⟩,
    ⟨rfl, by decide, by decide, by decide⟩, by decide, by decide⟩

/-- C110 fails for a linear call with all tensors by keyword and the input last: the conversion raises, although all
are given. -/
theorem C110_input_last_violated : ∃ c : Call Lit String, Plain linearParams c ∧
    bound linearParams c "input" = some (.node 0) ∧ bound linearParams c "weight" = some (.node 1) ∧
    linear exConst c = Option.none :=
  ⟨⟨Option.none, [], [("weight", .node 1), ("input", .node 0)]⟩, ⟨rfl, by decide, by decide, by decide⟩,
    by decide, by decide, by decide⟩

end MCT.Torch.Functional
