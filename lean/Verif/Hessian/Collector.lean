/- Collection of the statistics of activations, with the Hessian scores that weight them. -/
import Verif.Hessian.Model
import Mathlib.Data.List.Nodup

namespace MCT.Hessian

set_option linter.unusedVariables false
set_option linter.unusedSectionVars false

variable {N : Type} [DecidableEq N]

/-! ### Model

Paths are relative to /repo/model_compression_toolkit/core.  A tensor is identified with the layer whose output
it is. -/

/-- The score of a tensor: the tensors whose sum is differentiated, and the tensor it is differentiated by
(pytorch/hessian/activation_hessian_scores_calculator_pytorch.py 103-140). -/
structure Score (N : Type) where
  outs : List (HNode N)
  wrt : HNode N
  deriving DecidableEq

/-- `outputs_nodes`, common/model_collector.py 174-196: the layers whose statistics are collected, in the order
of the nodes of the graph; the flag says that some collector of the layer requires collection. -/
def collected (nodes : List (HNode N × Bool)) : List (HNode N) := (nodes.filter (·.2)).map (·.1)

/-- `intermediate_output_tensors`, common/model_collector.py 198. -/
def intermediate (nodes : List (HNode N × Bool)) (outs : List (HNode N)) : List (HNode N) :=
  (collected nodes).filter (fun x => decide (x ∉ outs))

/-- `append2output`, common/model_collector.py 203: the tensors the model of the collector returns. -/
def tensors (nodes : List (HNode N × Bool)) (outs : List (HNode N)) : List (HNode N) :=
  collected nodes ++ outs.filter (fun x => decide (x ∉ collected nodes))

/-- Assignment in a dictionary: the value is replaced, or appended for a new key. -/
def assign {A : Type} (d : List (N × A)) (k : N) (v : A) : List (N × A) :=
  if d.any (fun e => decide (e.1 = k)) then d.map (fun e => if e.1 = k then (k, v) else e) else d ++ [(k, v)]

/-- `{layer.name: score for layer, score in zip(...)}`, common/hessian/hessian_info_service.py 300-302. -/
def zipDict {A : Type} (l : List (N × A)) : List (N × A) := l.foldl (fun d e => assign d e.1 e.2) []

/-- `fetch_hessian` with `compute_from_tensors`, common/hessian/hessian_info_service.py 164-171, with the scores
of pytorch/hessian/activation_hessian_scores_calculator_pytorch.py 81-105: the first tensors are taken for those
of the targets, the others for the outputs of the model. The names of the original request are not restored. -/
def fromTensors (graph targets ts : List (HNode N)) : Option (List (N × Score N)) :=
  (targets.mapM (primary graph)).map (fun prims =>
    zipDict (List.zip (prims.map (·.name)) ((ts.take targets.length).map (fun t => ⟨ts.drop targets.length, t⟩))))

/-- The scores in the order of the dictionary, common/model_collector.py 226-236 (none without `hmse`). -/
def hessianTensors (hmse : Bool) (nodes : List (HNode N × Bool)) (outs : List (HNode N)) : Option (List (Score N)) :=
  if hmse then (fromTensors (nodes.map (·.1)) (intermediate nodes outs) (tensors nodes outs)).map (List.map (·.2))
  else some []

/-- The positional pairing of tensors, padded scores and collectors, common/model_collector.py 238-262. -/
def pairUp (cs ts : List (HNode N)) (hs : List (Score N)) : List (HNode N × HNode N × Option (Score N)) :=
  List.zip cs (List.zip ts (hs.map some ++ List.replicate (ts.length - hs.length) none))

/-- `infer`, common/model_collector.py 211-262: what each collector is updated with: its layer, the tensor and
the score of the tensor. -/
def infer (hmse : Bool) (nodes : List (HNode N × Bool)) (outs : List (HNode N)) :
    Option (List (HNode N × HNode N × Option (Score N))) :=
  (hessianTensors hmse nodes outs).map (pairUp (collected nodes) (tensors nodes outs))

theorem pairUp_spec (mid last extra : List (HNode N)) (f : HNode N → Score N) :
    pairUp (mid ++ last) (mid ++ (last ++ extra)) (mid.map f) =
      mid.map (fun x => (x, x, some (f x))) ++ last.map (fun x => (x, x, none)) := by
  unfold pairUp
  induction mid with
  | nil =>
    simp only [List.nil_append, List.map_nil, List.length_nil, Nat.sub_zero, List.length_append]
    induction last with
    | nil => simp
    | cons a l ih =>
      have : (a :: l).length + extra.length = (l.length + extra.length) + 1 := by simp; omega
      rw [this, List.replicate_succ]
      simp only [List.cons_append, List.zip_cons_cons, List.map_cons, ih]
  | cons a l ih =>
    have : (a :: l ++ (last ++ extra)).length - ((a :: l).map f).length =
        (l ++ (last ++ extra)).length - (l.map f).length := by
      simp
    rw [this]
    simp only [List.cons_append, List.zip_cons_cons, List.map_cons, ih]

/-! ### C97 -/

/-- **C97** without Hessian scores each layer whose statistics are collected gets its own output, once per
inference, in every model. -/
theorem C97_activations (nodes : List (HNode N × Bool)) (outs : List (HNode N)) :
    infer false nodes outs = some ((nodes.filter (·.2)).map (fun e => (e.1, e.1, none))) := by
  have h := pairUp_spec [] (collected nodes) (outs.filter (fun x => decide (x ∉ collected nodes)))
    (fun x => ⟨[], x⟩)
  simp only [List.nil_append, List.map_nil] at h
  unfold infer hessianTensors tensors
  simp only [Bool.false_eq_true, if_false, Option.map_some, h]
  simp [collected]

theorem zipDict_nodup {A : Type} (l : List (N × A)) (h : (l.map (·.1)).Nodup) : zipDict l = l := by
  unfold zipDict
  have key : ∀ (l d : List (N × A)), ((d ++ l).map (·.1)).Nodup →
      l.foldl (fun d e => assign d e.1 e.2) d = d ++ l := by
    intro l
    induction l with
    | nil => intro d _; simp
    | cons a l ih =>
      intro d hd
      have hnew : d.any (fun e => decide (e.1 = a.1)) = false := by
        rw [List.any_eq_false]
        intro e he
        simp only [decide_eq_true_eq]
        intro heq
        rw [List.map_append, List.nodup_append] at hd
        exact hd.2.2 _ (List.mem_map_of_mem he) _ (by simp) heq
      rw [List.foldl_cons]
      have : assign d a.1 a.2 = d ++ [a] := by
        unfold assign; rw [hnew]; simp
      rw [this, ih (d ++ [a]) (by simpa using hd)]
      simp
  simpa using key l [] (by simpa using h)

/-- **C97** (partial): with Hessian scores each collected layer gets its own output, weighted with the scores of
this output with respect to the outputs of the model (model outputs get no weights), when the model outputs that
are collected come after the other collected layers and no two collected layers share their weights.  Otherwise
it is false: `C97_early_output_violated`, `C97_reused_layer_violated`. -/
theorem C97_hessians_partial (nodes : List (HNode N × Bool)) (outs mid last : List (HNode N))
    (hc : collected nodes = mid ++ last) (hm : ∀ x ∈ mid, x ∉ outs) (hl : ∀ x ∈ last, x ∈ outs)
    (hr : ∀ x ∈ mid, x.reuse = false) (hn : (mid.map (·.name)).Nodup) :
    ∃ O : List (HNode N), (∀ y, y ∈ O ↔ y ∈ outs) ∧
      infer true nodes outs = some ((collected nodes).map
        (fun x => (x, x, if x ∈ outs then none else some ⟨O, x⟩))) := by
  have hint : intermediate nodes outs = mid := by
    unfold intermediate
    rw [hc, List.filter_append, List.filter_eq_self.mpr (by intro x hx; simpa using hm x hx),
      List.filter_eq_nil_iff.mpr (by intro x hx; simpa using hl x hx), List.append_nil]
  have hprim : ∀ g : List (HNode N), ∀ l : List (HNode N), (∀ x ∈ l, x.reuse = false) →
      l.mapM (primary g) = some l := by
    intro g l hl
    induction l with
    | nil => rfl
    | cons a l ih =>
      rw [List.mapM_cons, ih (fun x hx => hl x (by simp [hx]))]
      unfold primary
      rw [if_pos (hl a (by simp))]
      rfl
  set O := last ++ outs.filter (fun x => decide (x ∉ collected nodes)) with hO
  have hts : tensors nodes outs = mid ++ O := by
    unfold tensors; rw [hO, hc, List.append_assoc]
  refine ⟨O, ?_, ?_⟩
  · intro y
    rw [hO, List.mem_append, List.mem_filter]
    constructor
    · rintro (h | h)
      · exact hl y h
      · exact h.1
    · intro h
      by_cases hy : y ∈ collected nodes
      · rw [hc] at hy
        rcases List.mem_append.mp hy with hy | hy
        · exact absurd h (hm y hy)
        · exact Or.inl hy
      · exact Or.inr ⟨h, by simpa using hy⟩
  · have hft : fromTensors (nodes.map (·.1)) (intermediate nodes outs) (tensors nodes outs) =
        some (mid.map (fun x => (x.name, (⟨O, x⟩ : Score N)))) := by
      unfold fromTensors
      rw [hint, hprim _ _ hr, hts]
      simp only [Option.map_some, List.take_left', List.drop_left', Option.some.injEq]
      rw [zipDict_nodup]
      · rw [List.zip_map']
      · rw [List.zip_map', List.map_map]
        exact hn
    unfold infer hessianTensors
    rw [if_pos rfl, hft, hts, hc]
    simp only [Option.map_some, List.map_map, Option.some.injEq]
    have := pairUp_spec mid last (outs.filter (fun x => decide (x ∉ collected nodes))) (fun x => (⟨O, x⟩ : Score N))
    rw [← hO] at this
    refine Eq.trans this ?_
    rw [List.map_append]
    congr 1
    · apply List.map_congr_left
      intro x hx
      rw [if_neg (hm x hx)]
    · apply List.map_congr_left
      intro x hx
      rw [if_pos (hl x hx)]

/-- A model of three layers and an output: the hypotheses hold, and the third layer gets its own scores. -/
example : infer true [(⟨0, false, none⟩, true), (⟨1, false, none⟩, false), (⟨2, false, none⟩, true),
      (⟨3, false, none⟩, true)] [⟨3, false, none⟩] =
    some [(⟨0, false, none⟩, ⟨0, false, none⟩, some ⟨[⟨3, false, none⟩], ⟨0, false, none⟩⟩),
      (⟨2, false, none⟩, ⟨2, false, none⟩, some ⟨[⟨3, false, none⟩], ⟨2, false, none⟩⟩),
      (⟨3, false, none⟩, ⟨3, false, none⟩, none)] := by
  decide +kernel

/-- **C97** is false when a collected model output is not among the last: layer 2 comes after the model output 1,
and the score of layer 0 is taken with respect to layer 2, that of layer 2 is given to the output. -/
theorem C97_early_output_violated :
    infer true [(⟨0, false, none⟩, true), (⟨1, false, none⟩, true), (⟨2, false, none⟩, true), (⟨3, false, none⟩, true)]
        [⟨1, false, none⟩, ⟨3, false, none⟩] =
      some [(⟨0, false, none⟩, ⟨0, false, none⟩, some ⟨[⟨2, false, none⟩, ⟨3, false, none⟩], ⟨0, false, none⟩⟩),
        (⟨1, false, none⟩, ⟨1, false, none⟩, some ⟨[⟨2, false, none⟩, ⟨3, false, none⟩], ⟨1, false, none⟩⟩),
        (⟨2, false, none⟩, ⟨2, false, none⟩, none), (⟨3, false, none⟩, ⟨3, false, none⟩, none)] := by
  decide +kernel

/-- **C97** is false when a layer is reused: layer 1 reuses layer 0, layer 0 gets the score of the output of layer
1, layer 1 that of layer 2, and layer 2 none. -/
theorem C97_reused_layer_violated :
    (infer true [(⟨0, false, some 0⟩, true), (⟨1, true, some 0⟩, true), (⟨2, false, none⟩, true),
        (⟨3, false, none⟩, true)] [⟨3, false, none⟩]).map (List.map (fun e => (e.1.name, e.2.2.map (·.wrt.name)))) =
      some [(0, some 1), (1, some 2), (2, none), (3, none)] := by
  decide +kernel

end MCT.Hessian
