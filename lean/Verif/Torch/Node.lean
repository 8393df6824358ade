/- A node of the built model computes what the node of the traced model computes. -/
import Verif.Torch.Lemmas

namespace MCT.Torch

set_option linter.unusedVariables false
set_option linter.unusedSectionVars false
set_option linter.unusedSimpArgs false

variable {V C F K : Type} [DecidableEq K]

namespace TorchSpec

/-- Tensors that are all different, or a single one, no constant, repeated. -/
def Plain (cst : ℕ → Prop) (l : List ℕ) : Prop := l.Nodup ∨ ∃ x m, l = List.replicate (m + 1) x ∧ ¬ cst x

/-- The supported calls of functions: the tensors are all in the list that is the first argument, or there is no
list and they are all different, or a single one repeated in positional arguments. Keywords are given once. -/
def SimpleFunc (cst : ℕ → Prop) (c : Call C K) : Prop :=
  (c.kwargs.map (·.1)).Nodup ∧
    ((∃ l, c.list = some l ∧ Plain cst l ∧ nodeIds c.args = [] ∧ nodeIds (c.kwargs.map (·.2)) = []) ∨
     (c.list = none ∧ (nodeIds c.args ++ nodeIds (c.kwargs.map (·.2))).Nodup) ∨
     (c.list = none ∧ Plain cst (nodeIds c.args) ∧ nodeIds (c.kwargs.map (·.2)) = []))

/-- The supported calls of modules: positional arguments that are tensors. -/
def SimpleModule (cst : ℕ → Prop) (c : Call C K) : Prop :=
  c.list = none ∧ c.kwargs = [] ∧ lits c.args = [] ∧ Plain cst (nodeIds c.args)

/-- The tensors among the arguments. -/
def refs (c : Call C K) : List ℕ := c.list.getD [] ++ nodeIds c.args ++ nodeIds (c.kwargs.map (·.2))

/-- Supported nodes. -/
def SimpleOp (cst : ℕ → Prop) : Op V C F K → Prop
  | .func _ c => SimpleFunc cst c
  | .module _ c => SimpleModule cst c
  | _ => True

end TorchSpec

open TorchSpec

theorem mapM_some_of {A B : Type} (f : A → Option B) (g : A → B) (l : List A) (h : ∀ a ∈ l, f a = some (g a)) :
    l.mapM f = some (l.map g) := by
  induction l with
  | nil => rfl
  | cons a l ih =>
    rw [List.mapM_cons, h a (by simp), ih (fun x hx => h x (by simp [hx]))]
    rfl

theorem mem_nodeIds {args : List (Arg C)} {i : ℕ} : i ∈ nodeIds args ↔ Arg.node i ∈ args := by
  unfold nodeIds
  rw [List.mem_filterMap]
  constructor
  · rintro ⟨a, ha, h⟩
    cases a with
    | node k => simp at h; rw [← h]; exact ha
    | lit c => simp at h
  · intro h; exact ⟨_, h, rfl⟩

theorem callVals_some (env : ℕ → Option V) (val : ℕ → V) (c : Call C K) (h : ∀ i ∈ refs c, env i = some (val i)) :
    callVals env c = some (c.list.map (·.map val), c.args.map (argOf val),
      lookK (c.kwargs.map (fun e => (e.1, argOf val e.2)))) := by
  have harg : ∀ a : Arg C, (∀ i, a = .node i → env i = some (val i)) → argVal env a = some (argOf val a) := by
    intro a ha
    cases a with
    | node i => simp [argVal, argOf, ha i rfl]
    | lit c => rfl
  unfold refs at h
  have h2 : c.args.mapM (argVal env) = some (c.args.map (argOf val)) := by
    apply mapM_some_of
    intro a ha
    apply harg
    rintro i rfl
    exact h i (by simp [mem_nodeIds, ha])
  have h3 : c.kwargs.mapM (fun e => (argVal env e.2).map (fun v => (e.1, v))) =
      some (c.kwargs.map (fun e => (e.1, argOf val e.2))) := by
    apply mapM_some_of
    intro e he
    rw [harg e.2]
    · rfl
    · intro i hi
      refine h i ?_
      simp only [List.mem_append, mem_nodeIds, List.mem_map]
      exact Or.inr ⟨e, he, hi⟩
  unfold callVals
  rw [h2, h3]
  cases hl : c.list with
  | none => rfl
  | some l =>
    have : l.mapM env = some (l.map val) := by
      apply mapM_some_of
      intro i hi
      exact h i (by simp [hl, hi])
    simp only [this]
    rfl

theorem allInputs_eq (c : Call C K) : allInputs c = firsts (refs c) := rfl

/-! ### Weights and allocations -/

theorem weightsOf_list (cv : ℕ → Option V) (c : Call C K) (l : List ℕ) (hl : c.list = some l)
    (ha : nodeIds c.args = []) (hk : nodeIds (c.kwargs.map (·.2)) = []) (hn : l.Nodup) :
    weightsOf cv c = l.zipIdx.filterMap (fun e => (cv e.1).map (fun v => (e.2, v))) := by
  have hall : allInputs c = l := by
    rw [allInputs_eq, refs, hl, ha, hk]
    simp [firsts_of_nodup hn]
  unfold weightsOf
  rw [hl]
  simp only [hall]
  have h := positions_flatMap (C := C) (fun n i => ((cv n).map (fun v => (i, v))).toList) 0 (l.map .node)
    (by rw [nodeIds_node]; exact hn)
  rw [nodeIds_node, nodePos_zipIdx] at h
  have e1 : ∀ (g : ℕ → Option (ℕ × V)) (l : List ℕ), l.filterMap g = l.flatMap (fun i => (g i).toList) := by
    intro g l
    induction l with
    | nil => rfl
    | cons a l ih => cases ha : g a <;> simp [List.filterMap_cons, ha, ih]
  have e2 : ∀ (g : ℕ × ℕ → Option (ℕ × V)) (l : List (ℕ × ℕ)), l.filterMap g = l.flatMap (fun i => (g i).toList) := by
    intro g l
    induction l with
    | nil => rfl
    | cons a l ih => cases ha : g a <;> simp [List.filterMap_cons, ha, ih]
  rw [e2, ← h]
  apply List.flatMap_congr
  intro n _
  rw [e1]

theorem weightsOf_single (cv : ℕ → Option V) (c : Call C K) (x : ℕ) (hx : cv x = none) (hall : allInputs c = [x]) :
    weightsOf cv c = [] := by
  unfold weightsOf
  rw [hall]
  cases c.list <;> simp [hx]

theorem weightsOf_args (cv : ℕ → Option V) (c : Call C K) (hl : c.list = none)
    (hn : (nodeIds c.args ++ nodeIds (c.kwargs.map (·.2))).Nodup) :
    weightsOf cv c =
      (nodeIds c.args ++ nodeIds (c.kwargs.map (·.2))).zipIdx.filterMap (fun e => (cv e.1).map (fun v => (e.2, v))) := by
  unfold weightsOf
  rw [hl]
  simp only [allInputs_eq, refs, hl, Option.getD_none, List.nil_append, firsts_of_nodup hn]

/-- The keywords given the node `n`. -/
def kwOf (n : ℕ) (kw : List (K × Arg C)) : List (ℕ ⊕ K) := kw.filterMap (fun e => match e.2 with
  | .node i => if i = n then some (.inr e.1) else none
  | .lit _ => none)

/-- The keywords given nodes. -/
def kwKeys (kw : List (K × Arg C)) : List (ℕ ⊕ K) := kw.filterMap (fun e => match e.2 with
  | .node _ => some (.inr e.1)
  | .lit _ => none)

theorem kwOf_not_mem (n : ℕ) (kw : List (K × Arg C)) (h : n ∉ nodeIds (kw.map (·.2))) : kwOf n kw = [] := by
  induction kw with
  | nil => rfl
  | cons e kw ih =>
    obtain ⟨k, a⟩ := e
    cases a with
    | lit c => exact ih h
    | node i =>
      have hc : nodeIds (((k, Arg.node i) :: kw).map (·.2)) = i :: nodeIds (kw.map (·.2)) := rfl
      rw [hc, List.mem_cons, not_or] at h
      unfold kwOf
      rw [List.filterMap_cons_none (by simp only; rw [if_neg (fun hh => h.1 hh.symm)])]
      exact ih h.2

theorem kwOf_flatMap (kw : List (K × Arg C)) (h : (nodeIds (kw.map (·.2))).Nodup) :
    (nodeIds (kw.map (·.2))).flatMap (fun n => kwOf n kw) = kwKeys kw := by
  induction kw with
  | nil => rfl
  | cons e kw ih =>
    obtain ⟨k, a⟩ := e
    cases a with
    | lit c => exact ih h
    | node i =>
      have hc : nodeIds (((k, Arg.node i) :: kw).map (·.2)) = i :: nodeIds (kw.map (·.2)) := rfl
      have hk : kwKeys ((k, Arg.node i) :: kw) = .inr k :: kwKeys kw := rfl
      rw [hc] at h ⊢
      rw [List.nodup_cons] at h
      rw [hk, List.flatMap_cons, ← ih h.2]
      have h1 : kwOf i ((k, Arg.node i) :: kw) = [.inr k] := by
        unfold kwOf
        rw [List.filterMap_cons_some (b := Sum.inr k) (by simp)]
        rw [show kw.filterMap _ = kwOf i kw from rfl, kwOf_not_mem i kw h.1]
      rw [h1, List.singleton_append]
      congr 1
      apply List.flatMap_congr
      intro n hn
      unfold kwOf
      rw [List.filterMap_cons_none]
      simp only
      rw [if_neg (fun hh : i = n => h.1 (hh ▸ hn))]

theorem allocsOf_args (c : Call C K) (hl : c.list = none)
    (hn : (nodeIds c.args ++ nodeIds (c.kwargs.map (·.2))).Nodup) :
    allocsOf c = (nodePos 0 c.args).map (fun e => Sum.inl e.2) ++ kwKeys c.kwargs := by
  have hall : allInputs c = nodeIds c.args ++ nodeIds (c.kwargs.map (·.2)) := by
    simp only [allInputs_eq, refs, hl, Option.getD_none, List.nil_append, firsts_of_nodup hn]
  unfold allocsOf
  rw [hall, hl, List.flatMap_append]
  rw [List.nodup_append] at hn
  simp only
  congr 1
  · have h := positions_flatMap (fun n i => [(Sum.inl i : ℕ ⊕ K)]) 0 c.args hn.1
    have e1 : ∀ l : List (ℕ × ℕ), l.flatMap (fun e => [(Sum.inl e.2 : ℕ ⊕ K)]) = l.map (fun e => Sum.inl e.2) := by
      intro l; induction l <;> simp_all
    have e2 : ∀ l : List ℕ, l.flatMap (fun i => [(Sum.inl i : ℕ ⊕ K)]) = l.map Sum.inl := by
      intro l; induction l <;> simp_all
    rw [e1] at h
    rw [← h]
    apply List.flatMap_congr
    intro n hnm
    rw [e2]
    have : kwOf n c.kwargs = [] := kwOf_not_mem _ _ (fun hh => hn.2.2 n hnm n hh rfl)
    show _ ++ kwOf n c.kwargs = _
    rw [this, List.append_nil]
  · rw [← kwOf_flatMap c.kwargs hn.2.1]
    apply List.flatMap_congr
    intro n hnm
    rw [positions_not_mem n 0 c.args (fun hh => hn.2.2 n hh n hnm rfl)]
    rfl

theorem positions_replicate (x m k : ℕ) (args : List (Arg C)) (h : nodeIds args = List.replicate m x) :
    positions x k args = (nodePos k args).map (·.2) := by
  induction args generalizing k m with
  | nil => rfl
  | cons a l ih =>
    cases a with
    | lit c => exact ih m (k + 1) h
    | node i =>
      have hc : nodeIds (Arg.node i :: l) = i :: nodeIds l := rfl
      rw [hc] at h
      cases m with
      | zero => simp at h
      | succ m =>
        rw [List.replicate_succ, List.cons.injEq] at h
        simp only [positions, nodePos, List.map_cons]
        rw [if_pos h.1, ih m (k + 1) h.2]

theorem allocsOf_single (c : Call C K) (x m : ℕ) (hl : c.list = none)
    (ha : nodeIds c.args = List.replicate (m + 1) x) (hk : nodeIds (c.kwargs.map (·.2)) = []) :
    allocsOf c = (nodePos 0 c.args).map (fun e => Sum.inl e.2) := by
  have hall : allInputs c = [x] := by
    rw [allInputs_eq, refs, hl, ha, hk]
    simp only [Option.getD_none, List.nil_append, List.append_nil, firsts_replicate]
  unfold allocsOf
  rw [hall, hl]
  simp only [List.flatMap_cons, List.flatMap_nil, List.append_nil]
  show _ ++ kwOf x c.kwargs = _
  rw [positions_replicate x (m + 1) 0 c.args ha, kwOf_not_mem x c.kwargs (by rw [hk]; simp), List.append_nil, List.map_map]
  rfl

/-! ### Functions -/

theorem litKwargs_keys (kw : List (K × Arg C)) : ((litKwargs kw).map (·.1)).Sublist (kw.map (·.1)) := by
  induction kw with
  | nil => exact List.Sublist.refl _
  | cons e kw ih =>
    obtain ⟨k, a⟩ := e
    cases a with
    | lit c => exact List.Sublist.cons_cons _ ih
    | node i => exact List.Sublist.cons _ ih

theorem nodeKw_zip (val : ℕ → V) (kw : List (K × Arg C)) :
    List.zip (kwKeys kw) ((nodeIds (kw.map (·.2))).map val) =
      (nodeKw val kw).map (fun e => ((Sum.inr e.1 : ℕ ⊕ K), e.2)) := by
  induction kw with
  | nil => rfl
  | cons e kw ih =>
    obtain ⟨k, a⟩ := e
    cases a with
    | lit c => exact ih
    | node i =>
      have h1 : kwKeys ((k, Arg.node i) :: kw) = .inr k :: kwKeys kw := rfl
      have h2 : nodeIds (((k, Arg.node i) :: kw).map (·.2)) = i :: nodeIds (kw.map (·.2)) := rfl
      have h3 : nodeKw val ((k, Arg.node i) :: kw) = (k, val i) :: nodeKw val kw := rfl
      rw [h1, h2, h3, List.map_cons, List.zip_cons_cons, ih]
      rfl

theorem pos_zip (val : ℕ → V) (k : ℕ) (args : List (Arg C)) :
    List.zip ((nodePos k args).map (fun e => (Sum.inl e.2 : ℕ ⊕ K))) ((nodeIds args).map val) =
      (nodePos k args).map (fun e => ((Sum.inl e.2 : ℕ ⊕ K), val e.1)) := by
  rw [← nodePos_fst k args, List.map_map]
  rw [List.zip_map']
  rfl

/-- Merging gives the arguments back. -/
theorem mergeInputs_spec (val : ℕ → V) (c : Call C K) (hk : (c.kwargs.map (·.1)).Nodup)
    (ha : allocsOf c = (nodePos 0 c.args).map (fun e => Sum.inl e.2) ++ kwKeys c.kwargs) :
    ∃ kw, mergeInputs (allocsOf c) (lits c.args) (litKwargs c.kwargs)
        ((nodeIds c.args ++ nodeIds (c.kwargs.map (·.2))).map val) = some (c.args.map (argOf val), kw) ∧
      lookK kw = lookK (c.kwargs.map (fun e => (e.1, argOf val e.2))) := by
  set kw0 := (litKwargs c.kwargs).map (fun e => (e.1, (Sum.inr e.2 : V ⊕ C))) with hkw0
  have hperm := kw_split val c.kwargs
  have hnd : ((c.kwargs.map (fun e : K × Arg C => (e.1, argOf val e.2))).map (·.1)).Nodup := by
    rw [List.map_map]; exact hk
  have hnd2 := (hperm.map (·.1)).nodup_iff.mpr hnd
  refine ⟨kw0 ++ (nodeKw val c.kwargs).map (fun e => (e.1, .inl e.2)), ?_, lookK_perm hperm hnd2⟩
  have hlen : ((nodePos 0 c.args).map (fun e => (Sum.inl e.2 : ℕ ⊕ K))).length = ((nodeIds c.args).map val).length := by
    rw [List.length_map, List.length_map, ← nodePos_fst 0 c.args, List.length_map]
  have hzip : List.zip (allocsOf c) ((nodeIds c.args ++ nodeIds (c.kwargs.map (·.2))).map val) =
      (nodePos 0 c.args).map (fun e => ((Sum.inl e.2 : ℕ ⊕ K), val e.1)) ++
        (nodeKw val c.kwargs).map (fun e => ((Sum.inr e.1 : ℕ ⊕ K), e.2)) := by
    rw [ha, List.map_append, List.zip_append hlen, pos_zip, nodeKw_zip]
  have hfold : (List.zip (allocsOf c) ((nodeIds c.args ++ nodeIds (c.kwargs.map (·.2))).map val)).foldlM mergeStep
      ((lits c.args).map .inr, kw0) =
        some (c.args.map (argOf val), kw0 ++ (nodeKw val c.kwargs).map (fun e => (e.1, .inl e.2))) := by
    rw [hzip, List.foldlM_append]
    have h1 := merge_positional (K := K) val kw0 c.args []
    simp only [List.length_nil, List.nil_append] at h1
    rw [h1]
    show List.foldlM mergeStep (c.args.map (argOf val), kw0) _ = _
    rw [merge_keyword]
    rw [List.map_append] at hnd2
    rw [hkw0]
    simpa [List.map_map, Function.comp_def] using hnd2
  unfold mergeInputs
  by_cases hemp : (allocsOf c).isEmpty
  · rw [if_pos hemp]
    have h0 : allocsOf c = [] := by simpa using hemp
    rw [h0, List.zip_nil_left] at hfold
    have hins : nodeIds c.args ++ nodeIds (c.kwargs.map (·.2)) = [] := by
      rw [h0] at ha
      have ha' := List.append_eq_nil_iff.mp ha.symm
      have e1 : nodeIds c.args = [] := by
        rw [← nodePos_fst 0 c.args]
        have := List.map_eq_nil_iff.mp ha'.1
        rw [this]; rfl
      have e2 : nodeIds (c.kwargs.map (·.2)) = [] := by
        rw [List.eq_nil_iff_forall_not_mem]
        intro i hi
        rw [mem_nodeIds, List.mem_map] at hi
        obtain ⟨e, he, hh⟩ := hi
        have : (Sum.inr e.1 : ℕ ⊕ K) ∈ kwKeys c.kwargs := by
          unfold kwKeys
          rw [List.mem_filterMap]
          exact ⟨e, he, by rw [hh]⟩
        rw [ha'.2] at this
        simp at this
      rw [e1, e2]; rfl
    rw [hins]
    simp only [List.map_nil, List.nil_append]
    exact hfold
  · rw [if_neg hemp]
    exact hfold

end MCT.Torch
