/-
Weights read and written by name.

Sources (under /repo/model_compression_toolkit):
  core/common/graph/base_node.py 292-347 (`_get_weight_name`, `get_weights_by_keys`, `set_weights_by_keys`,
    `get_weights_list`), 384-424 (`get_num_parameters`, `get_memory_bytes`)
  core/common/quantization/quantize_graph_weights.py 37-56, quantize_node.py 39-60
  core/common/statistics_correction/apply_bias_correction_to_graph.py 53-81
  gptq/keras/gptq_training.py 412-448, gptq/pytorch/gptq_training.py 328-356 (`update_graph`)
  core/keras/back2framework/instance_builder.py 73-100, core/pytorch/back2framework/instance_builder.py 23-40

A Python exception is the value `none`.  Tensors are values of an arbitrary type; their shapes are not modelled.
-/
import Verif.Params.Props

namespace MCT.Params
open MCT.Py MCT.Tpc MCT.Cand

set_option linter.unusedVariables false

variable {V : Type}

/-! ### Model -/

/-- `set_weights_by_keys` with a string, base_node.py 324-339: the single key that contains the name is written, otherwise the
name itself. -/
def setValue (w : Dict Attr V) (s : Name) (v : V) : Dict Attr V :=
  match w.keys.filter fun k => contains k s with
  | [k] => w.set k v
  | _ => w.set (.named s) v

/-- `set_weights_by_keys` with any key: an integer compared with a string key (`name in k`) is a TypeError. -/
def setAttr (w : Dict Attr V) (a : Attr) (v : V) : Option (Dict Attr V) :=
  match a with
  | .named s => some (setValue w s v)
  | .pos i => if w.keys.any isNamed then none else some (w.set (.pos i) v)

/-- `get_weights_list`, base_node.py 341-347. -/
def weightsList (w : Dict Attr V) : List V := (w.filter fun p => isNamed p.1).map (·.2)

/-- `node_instance.set_weights(n.get_weights_list())` for a Keras layer with `count` weights, instance_builder.py 98: Keras
assigns the weights in their order and raises an error for another number of them. -/
def kerasBuild (count : ℕ) (w : Dict Attr V) : Option (List V) :=
  if (weightsList w).length = count then some (weightsList w) else none

/-- `load_state_dict(..., strict=False)` for a module with the parameters `params`, PyTorch instance_builder.py 37:
parameters that are not in the dictionary keep their initial value, keys that are not parameters are ignored. -/
def torchBuild (params : List (Name × V)) (w : Dict Attr V) : List (Name × V) :=
  params.map fun p => (p.1, (w.get (.named p.1)).getD p.2)

/-- One attribute in `quantize_graph_weights`, quantize_graph_weights.py 45-54 with quantize_node.py 39-60; `q` is the
quantization function of the attribute, which fails on `None`. -/
def quantizeAttr (enabled : Attr → Bool) (q : Attr → V → V) (w : Dict Attr V) (a : Attr) : Option (Dict Attr V) :=
  if enabled a then
    (valueOf w a).bind fun r => r.bind fun v => setAttr w a (q a v)
  else some w

/-- All attributes of a node; the names are listed before the loop (`get_node_weights_attributes`, base_node.py 349-355). -/
def quantizeAll (enabled : Attr → Bool) (q : Attr → V → V) (w : Dict Attr V) : Option (Dict Attr V) :=
  w.keys.foldlM (quantizeAttr enabled q) w

/-- `_apply_bias_correction_to_node`, apply_bias_correction_to_graph.py 68-81: the new weights and whether the layer is
marked as one with a bias. -/
def correctBias [Sub V] [Neg V] (bias : Name) (corr : V) (w : Dict Attr V) : Option (Dict Attr V × Bool) :=
  (valueOf w (.named bias)).map fun r =>
    match r with
    | some b => (setValue w bias (b - corr), false)
    | none => (setValue w bias (-corr), true)

/-- A node of the graph, for `update_graph`. -/
structure GNode (V : Type) where
  name : Name
  weights : Dict Attr V

/-- A wrapped layer after training: its name, the weights of its quantizers (`update_layer_quantization_params`,
base_keras_gptq_quantizer.py 47-72) and its bias, if it has one. -/
structure Trained (V : Type) where
  name : Name
  weights : List (Name × V)
  bias : Option V

/-- The weights of the node of a trained layer, keras gptq_training.py 434-446, pytorch 343-354. -/
def trainedWeights (trainBias : Bool) (biasName : Name) (t : Trained V) (w : Dict Attr V) : Dict Attr V :=
  let w1 := t.weights.foldl (fun w p => setValue w p.1 p.2) w
  match trainBias, t.bias with
  | true, some b => setValue w1 biasName b
  | _, _ => w1

/-- One layer of `update_graph`: there must be one node of that name. -/
def updateLayer (trainBias : Bool) (biasName : Name) (g : List (GNode V)) (t : Trained V) : Option (List (GNode V)) :=
  if (g.filter fun n => decide (n.name = t.name)).length = 1 then
    some (g.map fun n => if n.name = t.name then { n with weights := trainedWeights trainBias biasName t n.weights } else n)
  else none

/-- `update_graph`, keras gptq_training.py 412-448, pytorch 328-356 (the changed settings are those of C88). -/
def updateGraph (trainBias : Bool) (biasName : Name) (layers : List (Trained V)) (g : List (GNode V)) :
    Option (List (GNode V)) := layers.foldlM (updateLayer trainBias biasName) g

/-! ### Specification -/

/-- The key `k` is the only one that contains the name. -/
def OnlyKey (w : Dict Attr V) (s : Name) (k : Attr) : Prop :=
  k ∈ w.keys ∧ ∀ k' ∈ w.keys, (∃ t, k' = .named t ∧ s <:+: t) ↔ k' = k

/-- No key contains the name. -/
def NoKey (w : Dict Attr V) (s : Name) : Prop := ∀ t, Attr.named t ∈ w.keys → ¬ s <:+: t

/-- Two keys contain the name. -/
def TwoKeys (w : Dict Attr V) (s : Name) : Prop :=
  ∃ t t', t ≠ t' ∧ Attr.named t ∈ w.keys ∧ Attr.named t' ∈ w.keys ∧ s <:+: t ∧ s <:+: t'

/-- The weights of a Keras layer: the name of the layer, a slash and the name of the weight. -/
def kerasKeys (layer : Name) (ws : List (Name × V)) : Dict Attr V :=
  ws.map fun p => (.named (layer ++ '/' :: p.1), p.2)

/-! ### Proofs -/

theorem contains_iff (k : Attr) (s : Name) : contains k s = true ↔ ∃ t, k = .named t ∧ s <:+: t := by
  cases k with
  | pos i => simp [contains]
  | named t => simp [contains, hasSub_iff]

theorem filter_only {w : Dict Attr V} (hn : w.keys.Nodup) {s : Name} {k : Attr} (h : OnlyKey w s k) :
    (w.keys.filter fun k => contains k s) = [k] := by
  have h1 : (w.keys.filter fun k => contains k s) = w.keys.filter fun k' => decide (k' = k) := by
    apply List.filter_congr
    intro k' hk'
    have := h.2 k' hk'
    rw [← contains_iff] at this
    by_cases e : k' = k
    · simp only [e, decide_true]
      exact (h.2 k h.1).2 rfl |> (contains_iff k s).2
    · simp only [e, decide_false]
      exact Bool.eq_false_iff.2 fun hc => e (this.1 hc)
  rw [h1]
  have h2 : (w.keys.filter fun k' => decide (k' = k)) = w.keys.filter (fun k' => k' == k) := by
    apply List.filter_congr; intro x _; exact (beq_eq_decide x k).symm
  rw [h2, List.filter_beq, List.count_eq_one_of_mem hn h.1]
  rfl

theorem filter_none {w : Dict Attr V} {s : Name} (h : NoKey w s) :
    (w.keys.filter fun k => contains k s) = [] := by
  rw [List.filter_eq_nil_iff]
  intro k hk hc
  obtain ⟨t, rfl, ht⟩ := (contains_iff k s).1 hc
  exact h t hk ht

theorem filter_two {w : Dict Attr V} {s : Name} (h : TwoKeys w s) :
    ∃ a b l, (w.keys.filter fun k => contains k s) = a :: b :: l := by
  obtain ⟨t, t', hne, h1, h2, s1, s2⟩ := h
  have m1 : Attr.named t ∈ w.keys.filter fun k => contains k s :=
    List.mem_filter.2 ⟨h1, (contains_iff _ _).2 ⟨t, rfl, s1⟩⟩
  have m2 : Attr.named t' ∈ w.keys.filter fun k => contains k s :=
    List.mem_filter.2 ⟨h2, (contains_iff _ _).2 ⟨t', rfl, s2⟩⟩
  match w.keys.filter (fun k => contains k s), m1, m2 with
  | [], m1, _ => simp at m1
  | [k], m1, m2 =>
    simp only [List.mem_singleton] at m1 m2
    rw [← m2] at m1
    exact absurd (Attr.named.inj m1) hne
  | a :: b :: l, _, _ => exact ⟨a, b, l, rfl⟩

/-- C152.  A weight is read by a part of its name exactly when that part is in no other name. -/
theorem C152_read (w : Dict Attr V) (hn : w.keys.Nodup) (s : Name) (v : V) :
    valueOf w (.named s) = some (some v) ↔ ∃ k, OnlyKey w s k ∧ w.get k = some v := by
  constructor
  · intro h
    simp only [valueOf] at h
    split at h
    · rename_i k hk
      refine ⟨k, ⟨?_, fun k' hk' => ?_⟩, by simpa using h⟩
      · have : k ∈ w.keys.filter fun k => contains k s := by rw [hk]; simp
        exact (List.mem_filter.1 this).1
      · rw [← contains_iff]
        constructor
        · intro hc
          have : k' ∈ w.keys.filter fun k => contains k s := List.mem_filter.2 ⟨hk', hc⟩
          rw [hk] at this; simpa using this
        · rintro rfl
          have : k' ∈ w.keys.filter fun k => contains k s := by rw [hk]; simp
          exact (List.mem_filter.1 this).2
    · simp at h
  · rintro ⟨k, hk, hv⟩
    simp only [valueOf, filter_only hn hk, hv]

theorem onlyKey_set {w : Dict Attr V} {s : Name} {k : Attr} (h : OnlyKey w s k) (v : V) : OnlyKey (w.set k v) s k := by
  have : (w.set k v).keys = w.keys := by rw [Dict.keys_set, if_pos h.1]
  unfold OnlyKey
  rw [this]
  exact h

/-- C152.  Writing a weight whose name is found once changes that weight alone: it is read afterwards, and the names and
their order stay. -/
theorem C152_write (w : Dict Attr V) (hn : w.keys.Nodup) (s : Name) (k : Attr) (h : OnlyKey w s k) (v : V) :
    (setValue w s v).keys = w.keys ∧ valueOf (setValue w s v) (.named s) = some (some v) ∧
      (setValue w s v).get k = some v ∧ ∀ k', k' ≠ k → (setValue w s v).get k' = w.get k' := by
  have he : setValue w s v = w.set k v := by simp only [setValue, filter_only hn h]
  have hkeys : (w.set k v).keys = w.keys := by rw [Dict.keys_set, if_pos h.1]
  rw [he]
  refine ⟨hkeys, ?_, by rw [Dict.get_set, if_pos rfl], fun k' hk' => by rw [Dict.get_set, if_neg hk']⟩
  rw [C152_read _ (by rw [hkeys]; exact hn)]
  exact ⟨k, onlyKey_set h v, by rw [Dict.get_set, if_pos rfl]⟩

/-- C152.  Writing a weight whose name is in no key adds it behind all the others, and it can be read afterwards. -/
theorem C152_add (w : Dict Attr V) (hn : w.keys.Nodup) (s : Name) (h : NoKey w s) (v : V) :
    (setValue w s v).keys = w.keys ++ [.named s] ∧ valueOf (setValue w s v) (.named s) = some (some v) ∧
      (∀ k ∈ w.keys, (setValue w s v).get k = w.get k) ∧ weightsList (setValue w s v) = weightsList w ++ [v] := by
  have hni : Attr.named s ∉ w.keys := fun hm => h s hm (List.infix_refl s)
  have he : setValue w s v = w.set (.named s) v := by simp only [setValue, filter_none h]
  have hkeys : (w.set (.named s) v).keys = w.keys ++ [.named s] := by rw [Dict.keys_set, if_neg hni]
  rw [he]
  refine ⟨hkeys, ?_, fun k hk => ?_, ?_⟩
  · rw [C152_read _ (Dict.nodup_set _ _ hn)]
    refine ⟨.named s, ⟨by rw [hkeys]; simp, fun k' hk' => ⟨?_, ?_⟩⟩, by rw [Dict.get_set, if_pos rfl]⟩
    · rintro ⟨t, rfl, ht⟩
      rw [hkeys, List.mem_append] at hk'
      rcases hk' with hk' | hk'
      · exact absurd ht (h t hk')
      · simpa using hk'
    · rintro rfl
      exact ⟨s, rfl, List.infix_refl s⟩
  · rw [Dict.get_set, if_neg]
    rintro rfl
    exact hni hk
  · have : (Dict.has w (.named s)) = false := Bool.eq_false_iff.2 fun hh => hni ((Dict.has_iff w _).1 hh)
    simp only [Dict.set, this, weightsList]
    simp [isNamed]

/-- C152.  A weight written by its full name is written, also when other names contain it. -/
theorem C152_full_name (w : Dict Attr V) (hn : w.keys.Nodup) (s : Name) (h : Attr.named s ∈ w.keys) (v : V) :
    (setValue w s v).keys = w.keys ∧ (setValue w s v).get (.named s) = some v ∧
      ∀ k', k' ≠ .named s → (setValue w s v).get k' = w.get k' := by
  have hm : Attr.named s ∈ w.keys.filter fun k => contains k s :=
    List.mem_filter.2 ⟨h, (contains_iff _ _).2 ⟨s, rfl, List.infix_refl s⟩⟩
  have he : setValue w s v = w.set (.named s) v := by
    simp only [setValue]
    split
    · rename_i k hk
      rw [hk] at hm
      rw [List.mem_singleton.1 hm]
    · rfl
  rw [he]
  exact ⟨by rw [Dict.keys_set, if_pos h], by rw [Dict.get_set, if_pos rfl], fun k' hk' => by rw [Dict.get_set, if_neg hk']⟩

/-- C152.  The Keras layer built after writing a weight whose name is in one key: it gets as many weights as before, in the same
order, the written one at its place and the others unchanged. -/
theorem C152_keras_build (w : Dict Attr V) (hn : w.keys.Nodup) (s : Name) (k : Attr) (h : OnlyKey w s k) (v : V) :
    kerasBuild (weightsList w).length (setValue w s v)
      = some ((w.filter fun p => isNamed p.1).map fun p => if p.1 = k then v else p.2) := by
  have he : setValue w s v = w.set k v := by simp only [setValue, filter_only hn h]
  have hw : weightsList (setValue w s v) = (w.filter fun p => isNamed p.1).map fun p => if p.1 = k then v else p.2 := by
    rw [he, Dict.set, if_pos ((Dict.has_iff _ _).2 h.1)]
    unfold weightsList
    rw [List.filter_map, List.map_map]
    have : ((fun p : Attr × V => isNamed p.1) ∘ fun p : Attr × V => if p.1 = k then (p.1, v) else p)
        = fun p => isNamed p.1 := by
      funext p
      by_cases hp : p.1 = k <;> simp [hp]
    rw [this]
    congr 1
    funext p
    by_cases hp : p.1 = k <;> simp [hp]
  unfold kerasBuild
  rw [hw, if_pos (by simp [weightsList])]

/-- C152 (violated).  A weight whose name is in two keys is not found, and what is written to it is lost: all the weights of
the layer stay as they were, it is not found afterwards either, and the layer of Keras cannot be built any more. -/
theorem C152_ambiguous_violated (w : Dict Attr V) (s : Name) (h : TwoKeys w s) :
    valueOf w (.named s) = some none ∧ ∀ v : V,
      valueOf (setValue w s v) (.named s) = some none ∧
      (Attr.named s ∉ w.keys →
        (∀ k ∈ w.keys, (setValue w s v).get k = w.get k) ∧
        weightsList (setValue w s v) = weightsList w ++ [v] ∧
        kerasBuild (weightsList w).length (setValue w s v) = none ∧
        ∀ params : List (Name × V), (∀ p ∈ params, Attr.named p.1 ∈ w.keys) →
          torchBuild params (setValue w s v) = torchBuild params w) := by
  have hnone : ∀ w' : Dict Attr V, TwoKeys w' s → valueOf w' (.named s) = some none := by
    intro w' h'
    obtain ⟨a, b, l, e⟩ := filter_two h'
    simp only [valueOf, e]
  refine ⟨hnone w h, fun v => ?_⟩
  have he : setValue w s v = w.set (.named s) v := by
    obtain ⟨a, b, l, e⟩ := filter_two h
    simp only [setValue, e]
  rw [he]
  have hsub : ∀ k ∈ w.keys, k ∈ (w.set (.named s) v).keys := by
    intro k hk
    rw [Dict.keys_set]
    split
    · exact hk
    · simp [hk]
  refine ⟨hnone _ ?_, fun hni => ?_⟩
  · obtain ⟨t, t', hne, h1, h2, s1, s2⟩ := h
    exact ⟨t, t', hne, hsub _ h1, hsub _ h2, s1, s2⟩
  · have hkeep : ∀ k ∈ w.keys, (w.set (.named s) v).get k = w.get k := by
      intro k hk
      rw [Dict.get_set, if_neg]
      rintro rfl
      exact hni hk
    have hl : weightsList (w.set (.named s) v) = weightsList w ++ [v] := by
      have : (Dict.has w (.named s)) = false := Bool.eq_false_iff.2 fun hh => hni ((Dict.has_iff w _).1 hh)
      simp only [Dict.set, this, weightsList]
      simp [isNamed]
    refine ⟨hkeep, hl, ?_, fun params hp => ?_⟩
    · simp [kerasBuild, hl]
    · unfold torchBuild
      apply List.map_congr_left
      intro p hpm
      rw [hkeep _ (hp p hpm)]

/-! Names of Keras weights -/

theorem infix_slash {s l b : Name} (hs : '/' ∉ s) : s <:+: l ++ '/' :: b ↔ s <:+: l ∨ s <:+: b := by
  constructor
  · rintro ⟨p, q, e⟩
    rw [List.append_assoc, List.append_eq_append_iff] at e
    rcases e with ⟨a, h1, h2⟩ | ⟨c, h1, h2⟩
    · -- `l = p ++ a`, `s ++ q = a ++ '/' :: b`
      rw [List.append_eq_append_iff] at h2
      rcases h2 with ⟨a', h3, h4⟩ | ⟨c', h3, h4⟩
      · exact .inl ⟨p, a', by rw [h1, h3, List.append_assoc]⟩
      · cases c' with
        | nil => exact .inl ⟨p, [], by rw [h1, h3]; simp⟩
        | cons x c' =>
          simp only [List.cons_append, List.cons.injEq] at h4
          exact absurd (by rw [h3, ← h4.1]; simp) hs
    · cases c with
      | nil =>
        cases s with
        | nil => exact .inl (List.nil_infix)
        | cons x s =>
          simp only [List.nil_append, List.cons_append, List.cons.injEq] at h2
          exact absurd (by rw [h2.1]; simp) hs
      | cons x c =>
        simp only [List.cons_append, List.cons.injEq] at h2
        exact .inr ⟨c, q, by rw [h2.2, List.append_assoc]⟩
  · rintro (⟨p, q, e⟩ | ⟨p, q, e⟩)
    · exact ⟨p, q ++ '/' :: b, by rw [← e]; simp⟩
    · exact ⟨l ++ '/' :: p, q, by rw [← e]; simp⟩

theorem mem_kerasKeys {layer : Name} {ws : List (Name × V)} {t : Name} :
    Attr.named t ∈ (kerasKeys layer ws).keys ↔ ∃ p ∈ ws, t = layer ++ '/' :: p.1 := by
  simp only [kerasKeys, Dict.keys, List.map_map, List.mem_map, Function.comp]
  constructor
  · rintro ⟨p, hp, e⟩
    exact ⟨p, hp, (Attr.named.inj e).symm⟩
  · rintro ⟨p, hp, rfl⟩
    exact ⟨p, hp, rfl⟩

theorem kerasKeys_nodup {layer : Name} {ws : List (Name × V)} (hn : (ws.map (·.1)).Nodup) :
    (kerasKeys layer ws).keys.Nodup := by
  have : (kerasKeys layer ws).keys = (ws.map (·.1)).map fun b => Attr.named (layer ++ '/' :: b) := by
    simp [kerasKeys, Dict.keys, Function.comp_def]
  rw [this]
  exact hn.map fun a b e => by simpa using e

/-- C152 (partial).  In a Keras layer whose own name does not contain the name searched for, the weight found is that of the
only weight name that contains it. -/
theorem C152_keras_partial (layer : Name) (ws : List (Name × V)) (hn : (ws.map (·.1)).Nodup) (s : Name)
    (hs : '/' ∉ s) (hl : ¬ s <:+: layer) (b : Name) (v : V) (hb : (b, v) ∈ ws) (hsb : s <:+: b)
    (huniq : ∀ p ∈ ws, s <:+: p.1 → p.1 = b) : valueOf (kerasKeys layer ws) (.named s) = some (some v) := by
  rw [C152_read _ (kerasKeys_nodup hn)]
  refine ⟨.named (layer ++ '/' :: b), ⟨mem_kerasKeys.2 ⟨_, hb, rfl⟩, fun k' hk' => ⟨?_, ?_⟩⟩, ?_⟩
  · rintro ⟨t, rfl, ht⟩
    obtain ⟨p, hp, rfl⟩ := mem_kerasKeys.1 hk'
    rcases (infix_slash hs).1 ht with h | h
    · exact absurd h hl
    · rw [huniq p hp h]
  · rintro rfl
    exact ⟨_, rfl, (infix_slash hs).2 (.inr hsb)⟩
  · exact Dict.get_of_mem (kerasKeys_nodup hn) (List.mem_map.2 ⟨(b, v), hb, rfl⟩)

/-- C152 (violated).  In a Keras layer with several weights whose own name contains the name searched for, like "bias" in a
layer called "bias_conv", no weight is found, and after a write the layer cannot be built. -/
theorem C152_layer_name_violated (layer : Name) (ws : List (Name × V)) (hn : (ws.map (·.1)).Nodup) (s : Name)
    (hs : '/' ∉ s) (hl : s <:+: layer) (h2 : 2 ≤ ws.length) :
    valueOf (kerasKeys layer ws) (.named s) = some none ∧
      ∀ v, kerasBuild ws.length (setValue (kerasKeys layer ws) s v) = none := by
  have htwo : TwoKeys (kerasKeys layer ws) s := by
    match ws, hn, h2 with
    | p :: q :: ws, hn, _ =>
      refine ⟨layer ++ '/' :: p.1, layer ++ '/' :: q.1, ?_, mem_kerasKeys.2 ⟨p, by simp, rfl⟩,
        mem_kerasKeys.2 ⟨q, by simp, rfl⟩, (infix_slash hs).2 (.inl hl), (infix_slash hs).2 (.inl hl)⟩
      intro e
      simp only [List.append_cancel_left_eq, List.cons.injEq, true_and] at e
      simp [e] at hn
  have hni : Attr.named s ∉ (kerasKeys layer ws).keys := by
    intro hm
    obtain ⟨p, _, e⟩ := mem_kerasKeys.1 hm
    exact hs (by rw [e]; simp)
  have hlen : (weightsList (kerasKeys layer ws)).length = ws.length := by
    have : (kerasKeys layer ws).filter (fun p => isNamed p.1) = kerasKeys layer ws := by
      rw [List.filter_eq_self]
      intro p hp
      obtain ⟨q, _, rfl⟩ := List.mem_map.1 hp
      rfl
    rw [weightsList, this, List.length_map, kerasKeys, List.length_map]
  obtain ⟨h1, h3⟩ := C152_ambiguous_violated (kerasKeys layer ws) s htwo
  refine ⟨h1, fun v => ?_⟩
  have := ((h3 v).2 hni).2.2.1
  rwa [hlen] at this

/-! Quantizing the weights of a node -/

/-- No name is part of another one, and the keys are all names or all positions. -/
structure Apart (w : Dict Attr V) : Prop where
  nodup : w.keys.Nodup
  apart : ∀ s t, Attr.named s ∈ w.keys → Attr.named t ∈ w.keys → s <:+: t → s = t
  pure : (∀ k ∈ w.keys, isNamed k = true) ∨ (∀ k ∈ w.keys, isNamed k = false)

theorem apart_step {w : Dict Attr V} (hw : Apart w) {a : Attr} (ha : a ∈ w.keys) {v : V} (hv : w.get a = some v) (x : V) :
    valueOf w a = some (some v) ∧ setAttr w a x = some (w.set a x) := by
  cases a with
  | pos i =>
    have hany : w.keys.any isNamed = false := by
      rcases hw.pure with h | h
      · have := h _ ha; simp [isNamed] at this
      · rw [List.any_eq_false]; intro k hk; rw [h k hk]; simp
    constructor
    · simp only [valueOf, hany, hv]; rfl
    · simp only [setAttr, hany]; rfl
  | named s =>
    have ho : OnlyKey w s (.named s) := by
      refine ⟨ha, fun k' hk' => ⟨?_, ?_⟩⟩
      · rintro ⟨t, rfl, ht⟩
        rw [hw.apart s t ha hk' ht]
      · rintro rfl
        exact ⟨s, rfl, List.infix_refl s⟩
    exact ⟨(C152_read w hw.nodup s v).2 ⟨_, ho, hv⟩, by simp only [setAttr, setValue, filter_only hw.nodup ho]⟩

theorem quantize_fold (enabled : Attr → Bool) (q : Attr → V → V) : ∀ (l : List Attr) (w : Dict Attr V), Apart w → l.Nodup →
    (∀ a ∈ l, a ∈ w.keys) → ∃ w', l.foldlM (quantizeAttr enabled q) w = some w' ∧ w'.keys = w.keys ∧
      ∀ k, w'.get k = (w.get k).map fun v => if enabled k = true ∧ k ∈ l then q k v else v
  | [], w, hw, _, _ => ⟨w, rfl, rfl, fun k => by simp⟩
  | a :: l, w, hw, hn, hm => by
    have ha : a ∈ w.keys := hm a (by simp)
    obtain ⟨v, hv⟩ := get_of_mem_keys ha
    obtain ⟨e1, e2⟩ := apart_step hw ha hv (q a v)
    have hkeys : (w.set a (q a v)).keys = w.keys := by rw [Dict.keys_set, if_pos ha]
    rw [List.nodup_cons] at hn
    have hstep : ∃ w1, quantizeAttr enabled q w a = some w1 ∧ w1.keys = w.keys ∧
        ∀ k, w1.get k = (w.get k).map fun v => if enabled k = true ∧ k = a then q k v else v := by
      by_cases he : enabled a = true
      · refine ⟨w.set a (q a v), ?_, hkeys, fun k => ?_⟩
        · rw [quantizeAttr, if_pos he, e1]
          exact e2
        · rw [Dict.get_set]
          by_cases hk : k = a
          · subst hk; simp [hv, he]
          · simp [hk]
      · refine ⟨w, by rw [quantizeAttr, if_neg he], rfl, fun k => ?_⟩
        have : (fun v => if enabled k = true ∧ k = a then q k v else v) = id := by
          funext v
          rw [if_neg]; · rfl
          rintro ⟨h1, rfl⟩
          exact he h1
        rw [this]; simp
    obtain ⟨w1, s1, s2, s3⟩ := hstep
    have hw1 : Apart w1 := ⟨by rw [s2]; exact hw.nodup, by rw [s2]; exact hw.apart, by rw [s2]; exact hw.pure⟩
    obtain ⟨w', f1, f2, f3⟩ := quantize_fold enabled q l w1 hw1 hn.2 (fun b hb => by rw [s2]; exact hm b (by simp [hb]))
    refine ⟨w', ?_, by rw [f2, s2], fun k => ?_⟩
    · rw [List.foldlM_cons, s1]
      exact f1
    · rw [f3, s3, Option.map_map]
      congr 1
      funext v
      simp only [Function.comp, List.mem_cons]
      by_cases hk : k = a
      · subst hk
        by_cases he : enabled k = true <;> simp [he, hn.1]
      · simp [hk]

/-- C152 (partial).  When no weight name is part of another one and the keys are all names or all positions, quantizing the
weights of a layer replaces exactly the weights whose quantization is enabled, each by its own quantization. -/
theorem C152_quantize_partial (enabled : Attr → Bool) (q : Attr → V → V) (w : Dict Attr V) (hw : Apart w) :
    ∃ w', quantizeAll enabled q w = some w' ∧ w'.keys = w.keys ∧
      ∀ k, w'.get k = (w.get k).map fun v => if enabled k then q k v else v := by
  obtain ⟨w', h1, h2, h3⟩ := quantize_fold enabled q w.keys w hw hw.nodup (fun a h => h)
  refine ⟨w', h1, h2, fun k => ?_⟩
  rw [h3]
  cases hg : w.get k with
  | none => rfl
  | some v =>
    have : k ∈ w.keys := mem_keys_of_get hg
    simp [this]

theorem keys_quantizeAttr {enabled : Attr → Bool} {q : Attr → V → V} {w w' : Dict Attr V} {a : Attr} (ha : a ∈ w.keys)
    (h : quantizeAttr enabled q w a = some w') (hn : w.keys.Nodup) : w'.keys = w.keys := by
  unfold quantizeAttr at h
  split at h
  · obtain ⟨r, _, h⟩ := Option.bind_eq_some_iff.1 h
    obtain ⟨v, _, h⟩ := Option.bind_eq_some_iff.1 h
    cases a with
    | named s =>
      simp only [setAttr, Option.some.injEq] at h
      rw [← h]
      exact (C152_full_name w hn s ha _).1
    | pos i =>
      simp only [setAttr] at h
      split at h
      · simp at h
      · simp only [Option.some.injEq] at h
        rw [← h, Dict.keys_set, if_pos ha]
  · simp only [Option.some.injEq] at h
    rw [h]

/-- C152 (violated).  A layer in which the name of a weight to be quantized is part of the name of another weight cannot be
quantized, whatever the weights are. -/
theorem C152_part_of_name_violated (enabled : Attr → Bool) (q : Attr → V → V) (w : Dict Attr V) (hn : w.keys.Nodup)
    (s t : Name) (hs : Attr.named s ∈ w.keys) (ht : Attr.named t ∈ w.keys) (hne : s ≠ t) (hst : s <:+: t)
    (he : enabled (.named s) = true) : quantizeAll enabled q w = none := by
  have key : ∀ (l : List Attr) (w' : Dict Attr V), w'.keys = w.keys → (∀ a ∈ l, a ∈ w.keys) → Attr.named s ∈ l →
      l.foldlM (quantizeAttr enabled q) w' = none := by
    intro l
    induction l with
    | nil => intro _ _ _ h; simp at h
    | cons a l ih =>
      intro w' hw hm h
      rw [List.foldlM_cons]
      by_cases ha : a = .named s
      · subst ha
        have htwo : TwoKeys w' s := ⟨s, t, hne, by rw [hw]; exact hs, by rw [hw]; exact ht, List.infix_refl s, hst⟩
        have : quantizeAttr enabled q w' (.named s) = none := by
          rw [quantizeAttr, if_pos he, (C152_ambiguous_violated w' s htwo).1]
          rfl
        rw [this]
        rfl
      · cases hq : quantizeAttr enabled q w' a with
        | none => rfl
        | some w1 =>
          refine ih w1 ?_ (fun b hb => hm b (by simp [hb])) ?_
          · rw [keys_quantizeAttr (by rw [hw]; exact hm a (by simp)) hq (by rw [hw]; exact hn), hw]
          · rcases List.mem_cons.1 h with h | h
            · exact absurd h.symm ha
            · exact h
  exact key w.keys w rfl (fun a h => h) hs

/-! The corrected bias -/

/-- C152.  The correction is subtracted from the bias of a layer that has one, and the layer without a bias gets one behind
its other weights; no other weight changes. -/
theorem C152_bias_partial [Sub V] [Neg V] (bias : Name) (corr : V) (w : Dict Attr V) (hn : w.keys.Nodup) :
    (∀ k b, OnlyKey w bias k → w.get k = some b → ∃ w', correctBias bias corr w = some (w', false) ∧
      w'.keys = w.keys ∧ w'.get k = some (b - corr) ∧ ∀ k', k' ≠ k → w'.get k' = w.get k') ∧
    (NoKey w bias → ∃ w', correctBias bias corr w = some (w', true) ∧ w'.keys = w.keys ++ [.named bias] ∧
      w'.get (.named bias) = some (-corr) ∧ ∀ k ∈ w.keys, w'.get k = w.get k) := by
  constructor
  · intro k b hk hb
    have hv := (C152_read w hn bias b).2 ⟨k, hk, hb⟩
    obtain ⟨h1, _, h3, h4⟩ := C152_write w hn bias k hk (b - corr)
    exact ⟨setValue w bias (b - corr), by rw [correctBias, hv]; rfl, h1, h3, h4⟩
  · intro hno
    have hv : valueOf w (.named bias) = some none := by simp only [valueOf, filter_none hno]
    obtain ⟨h1, _, h3, _⟩ := C152_add w hn bias hno (-corr)
    have hni : Attr.named bias ∉ w.keys := fun hm => hno bias hm (List.infix_refl bias)
    refine ⟨setValue w bias (-corr), by rw [correctBias, hv]; rfl, h1, ?_, h3⟩
    have he : setValue w bias (-corr) = w.set (.named bias) (-corr) := by simp only [setValue, filter_none hno]
    rw [he, Dict.get_set, if_pos rfl]

/-! The graph after GPTQ -/

theorem updateLayer_names {tb : Bool} {bn : Name} {g g' : List (GNode V)} {t : Trained V}
    (h : updateLayer tb bn g t = some g') : g'.map (·.name) = g.map (·.name) := by
  unfold updateLayer at h
  split at h
  · simp only [Option.some.injEq] at h
    rw [← h, List.map_map]
    apply List.map_congr_left
    intro n _
    simp only [Function.comp]
    split <;> rfl
  · simp at h

theorem updateGraph_spec (tb : Bool) (bn : Name) : ∀ (layers : List (Trained V)) (g g' : List (GNode V)),
    (layers.map (·.name)).Nodup → updateGraph tb bn layers g = some g' →
    g'.length = g.length ∧ (∀ t ∈ layers, (g.filter fun n => decide (n.name = t.name)).length = 1) ∧
    ∀ (i : ℕ) (n n' : GNode V), g[i]? = some n → g'[i]? = some n' → n'.name = n.name ∧
      (∀ t ∈ layers, t.name = n.name → n'.weights = trainedWeights tb bn t n.weights) ∧
      ((∀ t ∈ layers, t.name ≠ n.name) → n'.weights = n.weights)
  | [], g, g', _, h => by
    simp only [updateGraph, List.foldlM_nil] at h
    obtain rfl : g = g' := by simpa using h
    refine ⟨rfl, by simp, fun i n n' hi hi' => ?_⟩
    rw [hi] at hi'
    obtain rfl := Option.some.inj hi'
    exact ⟨rfl, by simp, fun _ => rfl⟩
  | t :: layers, g, g', hn, h => by
    simp only [updateGraph, List.foldlM_cons] at h
    obtain ⟨g1, h1, h2⟩ := Option.bind_eq_some_iff.1 h
    rw [List.map_cons, List.nodup_cons] at hn
    obtain ⟨r1, r2, r3⟩ := updateGraph_spec tb bn layers g1 g' hn.2 h2
    have hnames := updateLayer_names h1
    have hone : (g.filter fun n => decide (n.name = t.name)).length = 1 ∧
        g1 = g.map fun n => if n.name = t.name then { n with weights := trainedWeights tb bn t n.weights } else n := by
      unfold updateLayer at h1
      split at h1
      · rename_i hh
        simp only [Option.some.injEq] at h1
        exact ⟨hh, h1.symm⟩
      · simp at h1
    obtain ⟨ho, hg1⟩ := hone
    have hlen : g1.length = g.length := by rw [hg1, List.length_map]
    have hcount : ∀ u : Trained V, (g1.filter fun n => decide (n.name = u.name)).length =
        (g.filter fun n => decide (n.name = u.name)).length := by
      intro u
      have : ∀ l : List (GNode V), (l.filter fun n => decide (n.name = u.name)).length =
          ((l.map (·.name)).filter fun n => decide (n = u.name)).length := by
        intro l
        rw [List.filter_map, List.length_map]
        rfl
      rw [this, this, hnames]
    refine ⟨by rw [r1, hlen], fun u hu => ?_, fun i n n' hi hi' => ?_⟩
    · rcases List.mem_cons.1 hu with rfl | hu
      · exact ho
      · rw [← hcount]; exact r2 u hu
    · have hi1 : g1[i]? = some (if n.name = t.name then { n with weights := trainedWeights tb bn t n.weights } else n) := by
        rw [hg1, List.getElem?_map, hi]; rfl
      obtain ⟨a1, a2, a3⟩ := r3 i _ n' hi1 hi'
      by_cases hname : n.name = t.name
      · simp only [if_pos hname] at a1 a2 a3
        refine ⟨a1, fun u hu hun => ?_, fun hno => absurd hname.symm (hno t (by simp))⟩
        have hut : u = t := by
          rcases List.mem_cons.1 hu with rfl | hu
          · rfl
          · exact absurd (List.mem_map.2 ⟨u, hu, by rw [hun, hname]⟩) hn.1
        subst hut
        exact a3 fun x hx hxn => hn.1 (List.mem_map.2 ⟨x, hx, by rw [hxn, hname]⟩)
      · simp only [if_neg hname] at a1 a2 a3
        refine ⟨a1, fun u hu hun => ?_, fun hno => a3 fun x hx => hno x (by simp [hx])⟩
        rcases List.mem_cons.1 hu with rfl | hu
        · exact absurd hun.symm hname
        · exact a2 u hu hun

/-- C152.  After GPTQ the graph has the same nodes; a node whose layer was trained gets the trained weights of the layer of
its name, and all other nodes keep their weights.  Every trained layer has exactly one node. -/
theorem C152_gptq (tb : Bool) (bn : Name) (layers : List (Trained V)) (g g' : List (GNode V))
    (hn : (layers.map (·.name)).Nodup) (h : updateGraph tb bn layers g = some g') :
    g'.length = g.length ∧ (∀ t ∈ layers, ∃ n ∈ g, n.name = t.name) ∧
    ∀ (i : ℕ) (n n' : GNode V), g[i]? = some n → g'[i]? = some n' → n'.name = n.name ∧
      (∀ t ∈ layers, t.name = n.name → ∀ kattr kernel, t.weights = [(kattr, kernel)] → n.weights.keys.Nodup →
        ∀ kk bk, OnlyKey n.weights kattr kk → OnlyKey n.weights bn bk → kk ≠ bk →
          n'.weights.keys = n.weights.keys ∧ n'.weights.get kk = some kernel ∧
          (∀ b, tb = true → t.bias = some b → n'.weights.get bk = some b) ∧
          ((tb = false ∨ t.bias = none) → n'.weights.get bk = n.weights.get bk) ∧
          ∀ k, k ≠ kk → k ≠ bk → n'.weights.get k = n.weights.get k) ∧
      ((∀ t ∈ layers, t.name ≠ n.name) → n'.weights = n.weights) := by
  obtain ⟨h1, h2, h3⟩ := updateGraph_spec tb bn layers g g' hn h
  refine ⟨h1, fun t ht => ?_, fun i n n' hi hi' => ?_⟩
  · have := h2 t ht
    cases hf : (g.filter fun n => decide (n.name = t.name)) with
    | nil => rw [hf] at this; simp at this
    | cons n l =>
      have hm : n ∈ g.filter fun n => decide (n.name = t.name) := by rw [hf]; simp
      exact ⟨n, (List.mem_filter.1 hm).1, by simpa using (List.mem_filter.1 hm).2⟩
  · obtain ⟨a1, a2, a3⟩ := h3 i n n' hi hi'
    refine ⟨a1, ?_, a3⟩
    intro t ht htn kattr kernel htw hnd kk bk hkk hbk hne
    have hw := a2 t ht htn
    obtain ⟨k1, _, k3, k4⟩ := C152_write n.weights hnd kattr kk hkk kernel
    have hbk' : OnlyKey (setValue n.weights kattr kernel) bn bk := by
      unfold OnlyKey
      rw [k1]
      exact hbk
    cases hb : t.bias with
    | none =>
      have he : n'.weights = setValue n.weights kattr kernel := by
        rw [hw]; cases tb <;> simp [trainedWeights, htw, hb]
      rw [he]
      exact ⟨k1, k3, fun b _ hb' => (by cases hb'), fun _ => k4 bk (Ne.symm hne), fun k h1 _ => k4 k h1⟩
    | some b =>
      cases tb with
      | false =>
        have he : n'.weights = setValue n.weights kattr kernel := by
          rw [hw]; simp [trainedWeights, htw, hb]
        rw [he]
        exact ⟨k1, k3, fun b h _ => (by cases h), fun _ => k4 bk (Ne.symm hne), fun k h1 _ => k4 k h1⟩
      | true =>
        have he : n'.weights = setValue (setValue n.weights kattr kernel) bn b := by
          rw [hw]; simp [trainedWeights, htw, hb]
        obtain ⟨b1, _, b3, b4⟩ := C152_write (setValue n.weights kattr kernel) (by rw [k1]; exact hnd) bn bk hbk' b
        rw [he]
        refine ⟨by rw [b1, k1], by rw [b4 kk hne, k3], fun b' _ hb' => ?_, fun hh => ?_, fun k h1 h2 => by
          rw [b4 k h2, k4 k h1]⟩
        · obtain rfl := Option.some.inj hb'
          exact b3
        · rcases hh with hh | hh <;> cases hh

/-! ### Cases that meet the hypotheses -/

def nm (s : String) : Name := s.toList

def convWeights (layer : String) : Dict Attr ℤ := kerasKeys (nm layer) [(nm "kernel:0", 3), (nm "bias:0", 5)]

example : valueOf (convWeights "conv") (.named (nm "bias")) = some (some 5) ∧
    weightsList (setValue (convWeights "conv") (nm "bias") 7) = [3, 7] := by decide +kernel

example : valueOf (convWeights "bias_conv") (.named (nm "bias")) = some none ∧
    weightsList (setValue (convWeights "bias_conv") (nm "bias") 7) = [3, 5, 7] ∧
    kerasBuild 2 (setValue (convWeights "bias_conv") (nm "bias") 7) = none := by decide +kernel

example : (quantizeAll (fun a => contains a (nm "kernel")) (fun _ v => 10 * v) (convWeights "conv")).map weightsList =
    some [30, 5] := by decide +kernel

example : (correctBias (nm "bias") 2 (convWeights "conv")).map (fun r => (weightsList r.1, r.2)) = some ([3, 3], false) ∧
    (correctBias (nm "bias") 2 [(.named (nm "weight"), (4 : ℤ))]).map (fun r => (weightsList r.1, r.2)) =
      some ([4, -2], true) := by decide +kernel

example : (updateGraph true (nm "bias") [⟨nm "conv", [(nm "kernel", 30)], some 50⟩]
    [⟨nm "conv", convWeights "conv"⟩, ⟨nm "dense", convWeights "dense"⟩]).map (fun g => g.map fun n => weightsList n.weights) =
    some [[30, 50], [3, 5]] := by decide +kernel

end MCT.Params
