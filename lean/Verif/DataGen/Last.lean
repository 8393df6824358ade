/-
C144: the last linear layers of a network, whose weights and inputs regularize its outputs in data generation.

Sources (under /repo/model_compression_toolkit/data_generation):
  pytorch/model_info_exctractors.py 152-210, pytorch/optimization_functions/output_loss_functions.py 96-120,
  keras/model_info_exctractors.py 72-201.
-/
import Mathlib.Data.List.Basic
import Mathlib.Data.List.Dedup
import Mathlib.Data.List.Zip
import Mathlib.Algebra.Order.BigOperators.Group.List
import Mathlib.Algebra.BigOperators.Group.List.Basic

namespace MCT.DataGen.Last

/-! ### PyTorch -/

/-- `PytorchActivationExtractor.__init__` (115-138): a traced network: `linear n` is the layer called by a node if it is a `Linear` or a `Conv2d`, `inputs n` are
`all_input_nodes`. -/
structure Fx where
  linear : ℕ → Option ℕ
  inputs : ℕ → List ℕ

/-- The loop of `_set_hooks_for_last_layers` (152-176) over a list that grows while it is read; `found` is one flag for
all outputs.  Without fuel left the result is `none`. -/
def search (g : Fx) : ℕ → List ℕ → Bool → List ℕ → Option (List ℕ)
  | _, [], _, acc => some acc
  | 0, _ :: _, _, _ => none
  | f + 1, n :: q, found, acc =>
    match g.linear n with
    | some l => search g f q true (acc ++ [l])
    | none => search g f (if found then q else q ++ g.inputs n) found acc

/-- `last_linear_layer_weights`: the layers found, in the order of the search. -/
def found (g : Fx) (fuel : ℕ) (outs : List ℕ) : Option (List ℕ) := search g fuel outs false []

/-- The keys of `last_linear_layers_hooks`: a dictionary, so each layer is there once, at its first place. -/
def hooked : List ℕ → List ℕ → List ℕ
  | [], acc => acc
  | l :: ls, acc => hooked ls (if l ∈ acc then acc else acc ++ [l])

/-- The triples of `regularized_min_max_diff` (108): the layer with the weights, the place of the output, and the layer
with the input. -/
def triples (layers : List ℕ) (outputs : ℕ) : List (ℕ × ℕ × ℕ) :=
  layers.zip ((List.range outputs).zip (hooked layers []))

/-! ### Specification -/

/-- The value of the node comes from the layer, through nodes that are not linear layers. -/
inductive From (g : Fx) : ℕ → ℕ → Prop
  | own {n l} : g.linear n = some l → From g n l
  | through {n m l} : g.linear n = none → m ∈ g.inputs n → From g m l → From g n l

/-- Nodes are numbered in the order of execution. -/
def Ordered (g : Fx) : Prop := ∀ n, ∀ m ∈ g.inputs n, m < n

/-! ### Lemmas -/

theorem search_sound (g : Fx) (outs : List ℕ) : ∀ (f : ℕ) (q : List ℕ) (b : Bool) (acc r : List ℕ),
    (∀ n ∈ q, ∀ l, From g n l → ∃ o ∈ outs, From g o l) → (∀ l ∈ acc, ∃ o ∈ outs, From g o l) →
    search g f q b acc = some r → ∀ l ∈ r, ∃ o ∈ outs, From g o l
  | _, [], _, acc, r, _, ha, h => by
    rw [search] at h
    cases h
    exact ha
  | 0, _ :: _, _, _, _, _, _, h => by rw [search] at h; cases h
  | f + 1, n :: q, b, acc, r, hq, ha, h => by
    rw [search] at h
    cases hl : g.linear n with
    | some l =>
      simp only [hl] at h
      refine search_sound g outs f q true _ r (fun m hm => hq m (List.mem_cons_of_mem _ hm)) ?_ h
      intro l' hl'
      rcases List.mem_append.mp hl' with h' | h'
      · exact ha l' h'
      · rw [List.mem_singleton] at h'
        subst h'
        exact hq n List.mem_cons_self _ (.own hl)
    | none =>
      simp only [hl] at h
      refine search_sound g outs f _ b acc r ?_ ha h
      intro m hm l hml
      have : m ∈ q ∨ m ∈ g.inputs n := by
        cases b
        · exact List.mem_append.mp hm
        · exact Or.inl hm
      rcases this with hm | hm
      · exact hq m (List.mem_cons_of_mem _ hm) l hml
      · exact hq n List.mem_cons_self l (.through hl hm hml)

/-- Once something was found, the search ends. -/
theorem search_true (g : Fx) : ∀ (q : List ℕ) (f : ℕ) (acc : List ℕ), q.length ≤ f →
    search g f q true acc = some (acc ++ q.filterMap g.linear)
  | [], f, acc, _ => by cases f <;> simp [search]
  | n :: q, 0, acc, h => by simp at h
  | n :: q, f + 1, acc, h => by
    rw [search]
    have hq : q.length ≤ f := by simpa using h
    cases hl : g.linear n with
    | some l =>
      simp only
      rw [search_true g q f _ hq, List.filterMap_cons_some hl, List.append_assoc]
      rfl
    | none =>
      simp only [if_true]
      rw [search_true g q f _ hq, List.filterMap_cons_none hl]

/-- The number of paths from a node. -/
def cost (g : Fx) : ℕ → ℕ → ℕ
  | 0, _ => 0
  | k + 1, n => 1 + ((g.inputs n).map (cost g k)).sum

theorem cost_stable (g : Fx) (ho : Ordered g) : ∀ (n k : ℕ), n < k → cost g k n = cost g (n + 1) n := by
  intro n
  induction n using Nat.strong_induction_on with
  | _ n ih =>
    intro k hk
    obtain ⟨k, rfl⟩ : ∃ j, k = j + 1 := ⟨k - 1, by omega⟩
    rw [cost, cost]
    congr 2
    refine List.map_congr_left fun m hm => ?_
    have hmn := ho n m hm
    rw [ih m hmn k (by omega), ih m hmn n hmn]

theorem cost_step (g : Fx) (ho : Ordered g) (n : ℕ) :
    cost g (n + 1) n = 1 + ((g.inputs n).map fun m => cost g (m + 1) m).sum := by
  rw [cost]
  congr 2
  refine List.map_congr_left fun m hm => ?_
  exact cost_stable g ho m n (ho n m hm)

theorem cost_pos (g : Fx) (q : List ℕ) : q.length ≤ (q.map fun m => cost g (m + 1) m).sum := by
  induction q with
  | nil => simp
  | cons n q ih =>
    rw [List.length_cons, List.map_cons, List.sum_cons]
    have : 1 ≤ cost g (n + 1) n := by rw [cost]; omega
    omega

theorem search_ends (g : Fx) (ho : Ordered g) : ∀ (f : ℕ) (q acc : List ℕ),
    (q.map fun m => cost g (m + 1) m).sum ≤ f →
    ∃ r, search g f q false acc = some r ∧ ((∃ n ∈ q, ∃ l, From g n l) → r ≠ []) ∧ acc.Sublist r
  | f, [], acc, _ => ⟨acc, by cases f <;> rfl, fun ⟨n, hn, _⟩ => (by cases hn), List.Sublist.refl _⟩
  | 0, n :: q, acc, h => by
    have := cost_pos g (n :: q)
    rw [List.length_cons] at this
    omega
  | f + 1, n :: q, acc, h => by
    rw [List.map_cons, List.sum_cons] at h
    rw [search]
    cases hl : g.linear n with
    | some l =>
      simp only
      have hq : q.length ≤ f := by
        have := cost_pos g q
        have h1 : 1 ≤ cost g (n + 1) n := by rw [cost]; omega
        omega
      rw [search_true g q f _ hq]
      refine ⟨_, rfl, fun _ => ?_, ?_⟩
      · simp
      · rw [List.append_assoc]; exact List.sublist_append_left _ _
    | none =>
      simp only [Bool.false_eq_true, if_false]
      have hc := cost_step g ho n
      obtain ⟨r, h1, h2, h3⟩ := search_ends g ho f (q ++ g.inputs n) acc (by
        rw [List.map_append, List.sum_append]; omega)
      refine ⟨r, h1, fun ⟨m, hm, l, hml⟩ => h2 ?_, h3⟩
      rcases List.mem_cons.mp hm with rfl | hm
      · cases hml with
        | own e => rw [hl] at e; cases e
        | through _ hm' hx => exact ⟨_, List.mem_append_right _ hm', l, hx⟩
      · exact ⟨m, List.mem_append_left _ hm, l, hml⟩

/-! ### Theorems -/

/-- **C144 (PyTorch).**  The search ends for every network; every layer found gives an output of the network through
nodes that are not linear layers, and some layer is found if there is one. -/
theorem C144_found (g : Fx) (ho : Ordered g) (outs : List ℕ) :
    ∃ F r, (∀ fuel, F ≤ fuel → found g fuel outs = some r) ∧ (∀ l ∈ r, ∃ o ∈ outs, From g o l) ∧
      ((∃ o ∈ outs, ∃ l, From g o l) ↔ r ≠ []) := by
  have mono : ∀ (f : ℕ) (q : List ℕ) (b : Bool) (acc r : List ℕ), search g f q b acc = some r →
      ∀ f', f ≤ f' → search g f' q b acc = some r := by
    intro f
    induction f with
    | zero =>
      intro q b acc r h f' _
      cases q with
      | nil => rw [search] at h; cases f' <;> (rw [search]; exact h)
      | cons n q => rw [search] at h; cases h
    | succ f ih =>
      intro q b acc r h f' hf
      cases q with
      | nil => rw [search] at h; cases f' <;> (rw [search]; exact h)
      | cons n q =>
        obtain ⟨f', rfl⟩ : ∃ j, f' = j + 1 := ⟨f' - 1, by omega⟩
        rw [search] at h ⊢
        cases hl : g.linear n with
        | some l => simp only [hl] at h ⊢; exact ih _ _ _ _ h f' (by omega)
        | none => simp only [hl] at h ⊢; exact ih _ _ _ _ h f' (by omega)
  obtain ⟨r, h1, h2, -⟩ := search_ends g ho _ outs [] (le_refl _)
  have hs := search_sound g outs _ outs false [] r (fun n hn l h => ⟨n, hn, h⟩) (fun l hl => (by cases hl)) h1
  refine ⟨_, r, fun fuel hf => mono _ _ _ _ _ h1 fuel hf, hs, h2, fun hr => ?_⟩
  obtain ⟨l, hl⟩ := List.exists_mem_of_ne_nil r hr
  obtain ⟨o, ho', hf⟩ := hs l hl
  exact ⟨o, ho', l, hf⟩

theorem hooked_nodup : ∀ (ls acc : List ℕ), (acc ++ ls).Nodup → hooked ls acc = acc ++ ls
  | [], acc, _ => by simp [hooked]
  | l :: ls, acc, h => by
    have hnot : l ∉ acc := by
      intro hl
      exact (List.nodup_append.mp h).2.2 l hl l List.mem_cons_self rfl
    rw [hooked, if_neg hnot, hooked_nodup ls (acc ++ [l]) (by simpa using h)]
    simp

/-- **C144 (PyTorch).**  When every output is that of a linear layer, each a different one, every output is regularized
with the weights and the input of its own layer. -/
theorem C144_linear_outputs (g : Fx) (outs layers : List ℕ) (hl : outs.map g.linear = layers.map some)
    (hn : layers.Nodup) (fuel : ℕ) (hf : outs.length ≤ fuel) :
    found g fuel outs = some layers ∧
      triples layers outs.length = (layers.zipIdx).map fun p => (p.1, p.2, p.1) := by
  have hlen : outs.length = layers.length := by simpa using congrArg List.length hl
  constructor
  · cases outs with
    | nil =>
      cases layers with
      | nil => unfold found; cases fuel <;> rfl
      | cons a l => simp at hl
    | cons n q =>
      cases layers with
      | nil => simp at hl
      | cons a ls =>
        rw [List.map_cons, List.map_cons, List.cons.injEq] at hl
        obtain ⟨h1, h2⟩ := hl
        cases fuel with
        | zero => simp at hf
        | succ f =>
          unfold found
          rw [search]
          simp only [h1]
          rw [search_true g q f _ (by simpa using hf)]
          have : q.filterMap g.linear = ls := by
            clear hf hn hlen
            induction q generalizing ls with
            | nil => cases ls with
              | nil => rfl
              | cons x xs => simp at h2
            | cons m q ih =>
              cases ls with
              | nil => simp at h2
              | cons x xs =>
                rw [List.map_cons, List.map_cons, List.cons.injEq] at h2
                rw [List.filterMap_cons_some h2.1, ih xs h2.2]
          rw [this]
          rfl
  · unfold triples
    rw [hooked_nodup layers [] (by simpa using hn), List.nil_append, hlen]
    apply List.ext_getElem
    · simp
    · intro i h1 h2
      simp

/-- **C144 (PyTorch).**  The only output of a network is regularized with the last linear layer before it, when
nothing else is on the way. -/
theorem C144_chain (g : Fx) : ∀ (chain : List ℕ) (n l : ℕ), g.linear n = some l →
    (∀ m ∈ chain, g.linear m = none) → List.IsChain (fun a b => g.inputs a = [b]) (chain ++ [n]) →
    ∀ fuel, chain.length < fuel → found g fuel [(chain ++ [n]).head (by simp)] = some [l]
  | [], n, l, hl, _, _, fuel, hf => by
    obtain ⟨f, rfl⟩ : ∃ j, fuel = j + 1 := ⟨fuel - 1, by omega⟩
    unfold found
    simp only [List.nil_append, List.head_cons]
    rw [search]
    simp only [hl]
    cases f <;> rfl
  | a :: chain, n, l, hl, hc, hch, fuel, hf => by
    obtain ⟨f, rfl⟩ : ∃ j, fuel = j + 1 := ⟨fuel - 1, by simp at hf; omega⟩
    have ha := hc a List.mem_cons_self
    have hrest : List.IsChain (fun a b => g.inputs a = [b]) (chain ++ [n]) := by
      rw [List.cons_append] at hch
      exact hch.of_cons
    have hin : g.inputs a = [(chain ++ [n]).head (by simp)] := by
      cases chain with
      | nil =>
        simp only [List.cons_append, List.nil_append] at hch
        cases hch with
        | cons_cons h _ => exact h
      | cons b c =>
        simp only [List.cons_append] at hch
        cases hch with
        | cons_cons h _ => exact h
    have ih := C144_chain g chain n l hl (fun m hm => hc m (List.mem_cons_of_mem _ hm)) hrest f
      (by simp at hf; omega)
    unfold found at ih ⊢
    simp only [List.cons_append, List.head_cons]
    rw [search]
    simp only [ha, Bool.false_eq_true, if_false, List.nil_append, hin]
    exact ih

/-- **C144 (violation).**  Two outputs, the first through a node that is not linear: each output is regularized with
the layer of the other one. -/
theorem C144_swapped_violated (g : Fx) (a b c l₁ l₂ : ℕ) (ha : g.linear a = none) (hi : g.inputs a = [c])
    (hc : g.linear c = some l₂) (hb : g.linear b = some l₁) (hne : l₁ ≠ l₂) (fuel : ℕ) (hf : 3 ≤ fuel) :
    (∀ l, From g a l ↔ l = l₂) ∧ (∀ l, From g b l ↔ l = l₁) ∧
    found g fuel [a, b] = some [l₁, l₂] ∧ triples [l₁, l₂] 2 = [(l₁, 0, l₁), (l₂, 1, l₂)] := by
  obtain ⟨f, rfl⟩ : ∃ j, fuel = j + 3 := ⟨fuel - 3, by omega⟩
  refine ⟨fun l => ⟨fun h => ?_, ?_⟩, fun l => ⟨fun h => ?_, ?_⟩, ?_, ?_⟩
  · cases h with
    | own e => rw [ha] at e; cases e
    | through _ hm hx =>
      rw [hi, List.mem_singleton] at hm
      subst hm
      cases hx with
      | own e => rw [hc] at e; cases e; rfl
      | through e _ _ => rw [hc] at e; cases e
  · rintro rfl
    exact .through ha (by rw [hi]; exact List.mem_singleton.mpr rfl) (.own hc)
  · cases h with
    | own e => rw [hb] at e; cases e; rfl
    | through e _ _ => rw [hb] at e; cases e
  · rintro rfl
    exact .own hb
  · unfold found
    rw [search]
    simp only [ha, Bool.false_eq_true, if_false, hi, List.cons_append, List.nil_append]
    rw [search]
    simp only [hb, List.nil_append]
    rw [search]
    simp only [hc]
    cases f <;> rfl
  · unfold triples hooked
    simp only [List.not_mem_nil, if_false, List.nil_append]
    unfold hooked
    rw [if_neg (by simpa using hne.symm)]
    rfl

/-- **C144 (violation).**  In the other order the second output is left without regularization. -/
theorem C144_missed_violated (g : Fx) (a b c l₁ l₂ : ℕ) (ha : g.linear a = none) (hi : g.inputs a = [c])
    (hc : g.linear c = some l₂) (hb : g.linear b = some l₁) (fuel : ℕ) (hf : 2 ≤ fuel) :
    From g a l₂ ∧ found g fuel [b, a] = some [l₁] ∧ triples [l₁] 2 = [(l₁, 0, l₁)] := by
  obtain ⟨f, rfl⟩ : ∃ j, fuel = j + 2 := ⟨fuel - 2, by omega⟩
  refine ⟨.through ha (by rw [hi]; exact List.mem_singleton.mpr rfl) (.own hc), ?_, rfl⟩
  unfold found
  rw [search]
  simp only [hb, List.nil_append]
  rw [search]
  simp only [ha, if_true]
  cases f <;> rfl

/-- **C144 (violation).**  Two outputs of one linear layer: the second one is left without regularization. -/
theorem C144_shared_violated (g : Fx) (a b c l : ℕ) (ha : g.linear a = none) (hb : g.linear b = none)
    (hia : g.inputs a = [c]) (hib : g.inputs b = [c]) (hc : g.linear c = some l) (fuel : ℕ) (hf : 4 ≤ fuel) :
    found g fuel [a, b] = some [l, l] ∧ triples [l, l] 2 = [(l, 0, l)] := by
  obtain ⟨f, rfl⟩ : ∃ j, fuel = j + 4 := ⟨fuel - 4, by omega⟩
  constructor
  · unfold found
    rw [search]
    simp only [ha, Bool.false_eq_true, if_false, hia, List.cons_append, List.nil_append]
    rw [search]
    simp only [hb, Bool.false_eq_true, if_false, hib, List.cons_append, List.nil_append]
    rw [search]
    simp only [hc, List.nil_append]
    rw [search]
    simp only [hc, List.cons_append, List.nil_append]
    cases f <;> rfl
  · unfold triples hooked
    simp only [List.not_mem_nil, if_false, List.nil_append]
    unfold hooked
    rw [if_pos (by simp)]
    rfl

/-- A network with the nodes input, two linear layers, a ReLU after the second one, and both outputs. -/
def twoHeads : Fx where
  linear n := if n = 1 then some 10 else if n = 2 then some 20 else none
  inputs n := if n = 1 ∨ n = 2 then [0] else if n = 3 then [2] else []

example : Ordered twoHeads := by
  intro n m hm
  unfold twoHeads at hm
  dsimp only at hm
  split_ifs at hm with h1 h2
  · simp at hm; omega
  · simp at hm; omega
  · simp at hm

example : found twoHeads 10 [3, 1] = some [10, 20] ∧ found twoHeads 10 [1, 3] = some [10] ∧
    found twoHeads 10 [1, 2] = some [10, 20] ∧ found twoHeads 10 [3] = some [20] := by decide

/-! ### Keras -/

/-- What is read of a layer of a Keras model (`KerasActivationExtractor.__init__`, 72-122); layers are compared by identity. -/
structure Layer where
  id : ℕ
  bn : Bool
  linear : Bool
  beforeBn : Bool

/-- `get_model_last_layer` (187-201): the last linear layer of `model.layers` that no batch normalization follows. -/
def lastLinear (ls : List Layer) : Option Layer := ls.reverse.find? fun l => l.linear && !l.beforeBn

/-- A tensor of the model: `layer.input`, `layer.output` and `model.output` (110-118). -/
inductive Tens
  | input (layer : ℕ)
  | output (layer : ℕ)
  | model
  deriving DecidableEq, Repr

/-- `outputs_list` (105-118). -/
def outputsList (ls : List Layer) : List Tens :=
  ((ls.filter (·.bn)).map fun l => .input l.id) ++
  (match lastLinear ls with
    | none => []
    | some l => if ls.getLast?.map (·.id) = some l.id then [] else [.output l.id]) ++ [.model]

/-- `run_model` (161-185): the inputs stored for the batch normalizations, and `last_linear_layer_output`. -/
def runModel (ls : List Layer) : List (ℕ × Option Tens) × Option Tens :=
  (((ls.filter (·.bn)).zipIdx).map (fun p => (p.1.id, (outputsList ls)[p.2]?)),
    match lastLinear ls with
    | none => none
    | some _ => (outputsList ls)[(ls.filter (·.bn)).length]?)

/-- **C144 (Keras).**  The statistics of every batch normalization are those of its own input; the layer that
regularizes the output is the last linear one without batch normalization, and its output is the one that is read,
when it is not the last layer of the model; otherwise the output of the whole model is read. -/
theorem C144_keras (ls : List Layer) :
    (runModel ls).1 = (ls.filter (·.bn)).map (fun l => (l.id, some (.input l.id))) ∧
    (lastLinear ls = none → (runModel ls).2 = none) ∧
    ∀ l, lastLinear ls = some l → l ∈ ls ∧ l.linear = true ∧ l.beforeBn = false ∧
      (ls.getLast?.map (·.id) ≠ some l.id → (runModel ls).2 = some (.output l.id)) ∧
      (ls.getLast?.map (·.id) = some l.id → (runModel ls).2 = some .model) := by
  refine ⟨?_, ?_, ?_⟩
  · unfold runModel
    simp only
    apply List.ext_getElem
    · simp
    · intro i h1 h2
      have hi : i < (ls.filter (·.bn)).length := by simpa using h2
      simp only [List.getElem_map, List.getElem_zipIdx, Nat.zero_add, Prod.mk.injEq, true_and]
      unfold outputsList
      rw [List.append_assoc, List.getElem?_append_left (by simpa using hi), List.getElem?_map,
        List.getElem?_eq_getElem hi]
      rfl
  · intro h
    unfold runModel
    simp only [h]
  · intro l h
    have hp := List.find?_some h
    rw [Bool.and_eq_true, Bool.not_eq_true'] at hp
    refine ⟨List.mem_reverse.mp (List.mem_of_find?_eq_some h), hp.1, hp.2, fun hn => ?_, fun hn => ?_⟩
    · unfold runModel outputsList
      simp only [h, if_neg hn]
      rw [List.append_assoc, List.getElem?_append_right (by simp)]
      simp
    · unfold runModel outputsList
      simp only [h, if_pos hn]
      rw [List.append_assoc, List.getElem?_append_right (by simp)]
      simp

/-- **C144 (Keras, one layer for all outputs).**  No later layer would do. -/
theorem C144_keras_last (pre post : List Layer) (l : Layer) (hl : l.linear = true) (hb : l.beforeBn = false)
    (hpost : ∀ m ∈ post, m.linear = false ∨ m.beforeBn = true) : lastLinear (pre ++ l :: post) = some l := by
  unfold lastLinear
  rw [List.reverse_append, List.reverse_cons, List.find?_append, List.find?_append]
  have h1 : post.reverse.find? (fun l => l.linear && !l.beforeBn) = none := by
    rw [List.find?_eq_none]
    intro m hm
    rcases hpost m (List.mem_reverse.mp hm) with h | h <;> simp [h]
  rw [h1]
  simp [hl, hb]

/-- A model with a batch normalization, and a linear layer before the last layer. -/
example : runModel [⟨0, false, false, false⟩, ⟨1, false, true, true⟩, ⟨2, true, false, false⟩, ⟨3, false, true, false⟩,
    ⟨4, false, false, false⟩] = ([(2, some (.input 2))], some (.output 3)) := by decide

end MCT.DataGen.Last
