/- One node of the built model against one node of the traced model. -/
import Verif.Torch.Edges

namespace MCT.Torch

set_option linter.unusedVariables false
set_option linter.unusedSectionVars false
set_option linter.unusedSimpArgs false

variable {V C F K : Type} [DecidableEq K]

open TorchSpec

/-- The constants of a traced model. -/
def isConst (nodes : List (Op V C F K)) (i : ℕ) : Prop := (constVal nodes i).isSome

theorem not_isConst {nodes : List (Op V C F K)} {i : ℕ} (h : ¬ isConst nodes i) : constVal nodes i = none := by
  unfold isConst at h
  simpa using h

theorem count_le_one {l : List ℕ} (h : l.Nodup) (i : ℕ) : l.count i ≤ 1 := List.nodup_iff_count_le_one.mp h i

theorem litArgs_val (val : ℕ → V) (args : List (Arg C)) (h : nodeIds args = []) :
    args.map (argOf val) = (lits args).map .inr := by
  induction args with
  | nil => rfl
  | cons a l ih =>
    cases a with
    | lit c =>
      have hl : lits (Arg.lit c :: l) = c :: lits l := rfl
      rw [hl, List.map_cons, List.map_cons, ih h]
      rfl
    | node i => simp [nodeIds] at h

theorem litKw_val (val : ℕ → V) (kw : List (K × Arg C)) (h : nodeIds (kw.map (·.2)) = []) :
    kw.map (fun e => (e.1, argOf val e.2)) = (litKwargs kw).map (fun e => (e.1, (Sum.inr e.2 : V ⊕ C))) := by
  induction kw with
  | nil => rfl
  | cons e l ih =>
    obtain ⟨k, a⟩ := e
    cases a with
    | lit c =>
      have hl : litKwargs ((k, Arg.lit c) :: l) = (k, c) :: litKwargs l := rfl
      rw [hl, List.map_cons, List.map_cons, ih h]
      rfl
    | node i => simp [nodeIds] at h

theorem nodeArgs_val (val : ℕ → V) (args : List (Arg C)) (h : lits args = []) :
    args.map (argOf val) = ((nodeIds args).map val).map .inl := by
  induction args with
  | nil => rfl
  | cons a l ih =>
    cases a with
    | lit c => simp [lits] at h
    | node i =>
      have hl : nodeIds (Arg.node i :: l) = i :: nodeIds l := rfl
      rw [hl, List.map_cons, List.map_cons, List.map_cons, ih h]
      rfl

theorem kwKeys_nil (kw : List (K × Arg C)) (h : nodeIds (kw.map (·.2)) = []) : kwKeys kw = [] := by
  rw [List.eq_nil_iff_forall_not_mem]
  intro k hk
  unfold kwKeys at hk
  rw [List.mem_filterMap] at hk
  obtain ⟨e, he, hh⟩ := hk
  cases h2 : e.2 with
  | lit c => rw [h2] at hh; simp at hh
  | node i =>
    have : i ∈ nodeIds (kw.map (·.2)) := by
      rw [mem_nodeIds, List.mem_map]
      exact ⟨e, he, h2⟩
    rw [h] at this
    simp at this

/-- The tensors a node gets, with its positional weights, when they are all different or a single one. -/
theorem inputs_plain (nodes : List (Op V C F K)) (edges : List GEdge) (j : ℕ) (op : Op V C F K)
    (hop : nodes[j]? = some op) (hedges : edges.filter (fun e => decide (e.dst = j)) =
      (edgesOf nodes).filter (fun e => decide (e.dst = j))) (c : Call C K) (hc : callOf op = some c)
    (hlt : ∀ i ∈ refs c, i < nodes.length) (env : ℕ → Option V) (val : ℕ → V)
    (henv : ∀ i ∈ refs c, (constVal nodes i).isNone → env i = some (val i))
    (hcon : ∀ i ∈ refs c, ∀ v, constVal nodes i = some v → val i = v)
    (R : List ℕ) (hR : refs c = R) (hP : Plain (isConst nodes) R)
    (hcount : (∀ x m, R = List.replicate (m + 1) x → countedArgs op = R) ∧ (countedArgs op).Sublist R)
    (hw : R.Nodup → weightsOf (constVal nodes) c =
      R.zipIdx.filterMap (fun e => (constVal nodes e.1).map (fun v => (e.2, v)))) :
    ∃ ins, inputTensors edges env j = some ins ∧
      insertWeights (weightsOf (constVal nodes) c) ins = some (R.map val) := by
  rcases hP with hn | ⟨x, m, hx, hcx⟩
  · have hall : allInputs c = R := by rw [allInputs_eq, hR, firsts_of_nodup hn]
    refine ⟨_, inputTensors_nodup nodes edges j op hop hedges c hc R hall hn (by rw [← hR]; exact hlt)
      (fun i _ => count_le_one (hcount.2.nodup hn) i) env val (by rw [← hR]; exact henv), ?_⟩
    rw [hw hn]
    exact insertWeights_spec R (constVal nodes) val (by rw [← hR]; exact hcon)
  · have hall : allInputs c = [x] := by rw [allInputs_eq, hR, hx, firsts_replicate]
    have hxr : x ∈ refs c := by rw [hR, hx]; simp
    have hxn := not_isConst hcx
    refine ⟨_, inputTensors_single nodes edges j op hop hedges c hc x m hall (hlt x hxr) (by rw [hxn]; rfl)
      (by rw [hcount.1 x m hx, hx]) env (val x) (henv x hxr (by rw [hxn]; rfl)), ?_⟩
    rw [weightsOf_single _ c x hxn hall, hx]
    unfold insertWeights
    simp

theorem step_call (sem : Sem V C F K) (nodes : List (Op V C F K)) (edges : List GEdge) (inputs : List V) (j : ℕ)
    (op : Op V C F K) (hop : nodes[j]? = some op) (hedges : edges.filter (fun e => decide (e.dst = j)) =
      (edgesOf nodes).filter (fun e => decide (e.dst = j))) (c : Call C K) (hc : callOf op = some c)
    (hS : SimpleOp (isConst nodes) op)
    (hlt : ∀ i ∈ refs c, i < nodes.length) (env fxenv : ℕ → Option V) (val : ℕ → V)
    (hfx : ∀ i ∈ refs c, fxenv i = some (val i))
    (henv : ∀ i ∈ refs c, (constVal nodes i).isNone → env i = some (val i))
    (hcon : ∀ i ∈ refs c, ∀ v, constVal nodes i = some v → val i = v) :
    buildStep sem nodes edges inputs env j = fxStep sem nodes inputs fxenv j op := by
  cases op with
  | placeholder => simp [callOf] at hc
  | const v => simp [callOf] at hc
  | module f c' =>
    simp only [callOf, Option.some.injEq] at hc
    subst hc
    obtain ⟨hl, hk, hlit, hP⟩ := hS
    have hkw : nodeIds (c'.kwargs.map (·.2)) = [] := by rw [hk]; rfl
    have hR : refs c' = nodeIds c'.args := by simp [refs, hl, hkw]
    obtain ⟨ins, h1, h2⟩ := inputs_plain nodes edges j _ hop hedges c' rfl hlt env val henv hcon _ hR hP
      ⟨fun x m _ => rfl, List.Sublist.refl _⟩ (fun hn => by
        have := weightsOf_args (constVal nodes) c' hl (by rw [hkw, List.append_nil]; exact hn)
        rw [hkw, List.append_nil] at this
        exact this)
    unfold buildStep fxStep
    simp only [hop, Option.bind_some, readNode, h1, runNode, h2, callVals_some fxenv val c' hfx]
    rw [hl, nodeArgs_val val c'.args hlit, hk]
    rfl
  | func f c' =>
    simp only [callOf, Option.some.injEq] at hc
    subst hc
    obtain ⟨hkn, ⟨l, hl, hP, ha, hk⟩ | ⟨hl, hn⟩ | ⟨hl, hP, hk⟩⟩ := hS
    · have hR : refs c' = l := by simp [refs, hl, ha, hk]
      obtain ⟨ins, h1, h2⟩ := inputs_plain nodes edges j _ hop hedges c' rfl hlt env val henv hcon _ hR hP
        ⟨fun x m _ => by simp [countedArgs, hl], by simp [countedArgs, hl]⟩
        (fun hn => weightsOf_list (constVal nodes) c' l hl ha hk hn)
      unfold buildStep fxStep
      simp only [hop, Option.bind_some, readNode, h1, runNode, h2, callVals_some fxenv val c' hfx]
      rw [hl, litArgs_val val c'.args ha, litKw_val val c'.kwargs hk]
      rfl
    · have hR : refs c' = nodeIds c'.args ++ nodeIds (c'.kwargs.map (·.2)) := by simp [refs, hl]
      have hP : Plain (isConst nodes) (nodeIds c'.args ++ nodeIds (c'.kwargs.map (·.2))) := Or.inl hn
      have hall : allInputs c' = nodeIds c'.args ++ nodeIds (c'.kwargs.map (·.2)) := by
        rw [allInputs_eq, hR, firsts_of_nodup hn]
      have h1 := inputTensors_nodup nodes edges j _ hop hedges c' rfl _ hall hn (by rw [← hR]; exact hlt)
        (fun i _ => count_le_one (by
          simp only [countedArgs, hl]
          exact (List.nodup_append.mp hn).1) i) env val (by rw [← hR]; exact henv)
      have h2 := insertWeights_spec (nodeIds c'.args ++ nodeIds (c'.kwargs.map (·.2))) (constVal nodes) val (by rw [← hR]; exact hcon)
      rw [← weightsOf_args (constVal nodes) c' hl hn] at h2
      obtain ⟨kw, h3, h4⟩ := mergeInputs_spec val c' hkn (allocsOf_args c' hl hn)
      unfold buildStep fxStep
      simp only [hop, Option.bind_some, readNode, h1, runNode, h2, callVals_some fxenv val c' hfx, hl,
        Option.isSome_none, Bool.false_eq_true, if_false, h3, h4]
      rfl
    · have hR : refs c' = nodeIds c'.args := by simp [refs, hl, hk]
      obtain ⟨ins, h1, h2⟩ := inputs_plain nodes edges j _ hop hedges c' rfl hlt env val henv hcon _ hR hP
        ⟨fun x m _ => by simp [countedArgs, hl], by simp [countedArgs, hl]⟩ (fun hn => by
          have := weightsOf_args (constVal nodes) c' hl (by rw [hk, List.append_nil]; exact hn)
          rw [hk, List.append_nil] at this
          exact this)
      have hal : allocsOf c' = (nodePos 0 c'.args).map (fun e => Sum.inl e.2) ++ kwKeys c'.kwargs := by
        rcases hP with hn | ⟨x, m, hx, _⟩
        · exact allocsOf_args c' hl (by rw [hk, List.append_nil]; exact hn)
        · rw [allocsOf_single c' x m hl hx hk, kwKeys_nil _ hk, List.append_nil]
      obtain ⟨kw, h3, h4⟩ := mergeInputs_spec val c' hkn hal
      rw [hk, List.append_nil] at h3
      unfold buildStep fxStep
      simp only [hop, Option.bind_some, readNode, h1, runNode, h2, callVals_some fxenv val c' hfx, hl,
        Option.isSome_none, Bool.false_eq_true, if_false, h3, h4]
      rfl

theorem graphInputs_idx (nodes : List (Op V C F K)) (j : ℕ) (hj : j < nodes.length) (h : isPlaceholder nodes[j] = true) :
    (graphInputs nodes).idxOf j = (nodes.take j).countP isPlaceholder := by
  have key : ∀ n, n ≤ nodes.length →
      ((List.range n).filter (fun i => match nodes[i]? with
        | some op => isPlaceholder op
        | none => false)).length = (nodes.take n).countP isPlaceholder := by
    intro n hn
    induction n with
    | zero => rfl
    | succ n ih =>
      have hlt : n < nodes.length := by omega
      rw [List.range_succ, List.filter_append, List.length_append, ih (by omega), List.take_add_one,
        List.countP_append]
      congr 1
      rw [List.filter_cons, List.filter_nil]
      simp only [List.getElem?_eq_getElem hlt, Option.toList_some, List.countP_cons, List.countP_nil]
      split_ifs <;> rfl
  rw [← key j (by omega)]
  unfold graphInputs
  have hr : List.range nodes.length = List.range j ++ j :: (List.range (nodes.length - j - 1)).map (fun t => j + 1 + t) := by
    have : nodes.length = j + (1 + (nodes.length - j - 1)) := by omega
    conv_lhs => rw [this]
    rw [List.range_add, List.range_add]
    simp [Nat.add_assoc]
  rw [hr, List.filter_append, List.idxOf_append_of_notMem, List.filter_cons_of_pos, List.idxOf_cons_self, Nat.add_zero]
  · rfl
  · simpa [List.getElem?_eq_getElem hj] using h
  · rw [List.mem_filter]
    simp

end MCT.Torch
