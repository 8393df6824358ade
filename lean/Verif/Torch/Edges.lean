/- The inputs of a node of the built model, from the sorted incoming edges. -/
import Verif.Torch.Node

namespace MCT.Torch

set_option linter.unusedVariables false
set_option linter.unusedSectionVars false
set_option linter.unusedSimpArgs false

variable {V C F K : Type} [DecidableEq K]

open TorchSpec

theorem edgesBetween_dst (nodes : List (Op V C F K)) (i j : ℕ) : ∀ e ∈ edgesBetween nodes i j, e.dst = j ∧ e.src = i := by
  intro e he
  unfold edgesBetween at he
  split at he
  · simp at he
  · split at he
    · simp at he
    · split_ifs at he
      · rw [List.mem_map] at he
        obtain ⟨t, _, rfl⟩ := he
        exact ⟨rfl, rfl⟩
      · simp at he

theorem filter_flatMap {A B : Type} (p : B → Bool) (f : A → List B) (l : List A) :
    (l.flatMap f).filter p = l.flatMap (fun a => (f a).filter p) := by
  induction l with
  | nil => rfl
  | cons a l ih => rw [List.flatMap_cons, List.filter_append, ih, List.flatMap_cons]

theorem flatMap_single {B : Type} (f : ℕ → List B) (n j : ℕ) (hj : j < n) (h : ∀ i, i ≠ j → f i = []) :
    (List.range n).flatMap f = f j := by
  induction n with
  | zero => omega
  | succ n ih =>
    rw [List.range_succ, List.flatMap_append, List.flatMap_singleton]
    by_cases hh : j = n
    · have : (List.range n).flatMap f = [] := by
        rw [List.flatMap_eq_nil_iff]
        intro i hi
        apply h
        have := List.mem_range.mp hi
        omega
      rw [this, hh]; rfl
    · rw [ih (by omega), h n (fun hn => hh hn.symm), List.append_nil]

theorem inEdges (nodes : List (Op V C F K)) (j : ℕ) (hj : j < nodes.length) :
    (edgesOf nodes).filter (fun e => decide (e.dst = j)) =
      (List.range nodes.length).flatMap (fun i => edgesBetween nodes i j) := by
  unfold edgesOf
  rw [filter_flatMap]
  apply List.flatMap_congr
  intro i _
  rw [filter_flatMap, flatMap_single _ _ j hj]
  · rw [List.filter_eq_self]
    intro e he
    simp [(edgesBetween_dst nodes i j e he).1]
  · intro k hk
    rw [List.filter_eq_nil_iff]
    intro e he
    simp [(edgesBetween_dst nodes i k e he).1, hk]

instance : Std.Total (fun a b : GEdge => a.idx ≤ b.idx) := ⟨fun a b => Nat.le_total _ _⟩
instance : IsTrans GEdge (fun a b : GEdge => a.idx ≤ b.idx) := ⟨fun _ _ _ h1 h2 => Nat.le_trans h1 h2⟩

/-- Sorted edges when every input has one. -/
theorem sorted_nodup (nodes : List (Op V C F K)) (j : ℕ) (op : Op V C F K) (hop : nodes[j]? = some op) (c : Call C K)
    (hc : callOf op = some c) (R : List ℕ) (hR : allInputs c = R) (hn : R.Nodup) (hlt : ∀ i ∈ R, i < nodes.length)
    (hcount : ∀ i ∈ R, (countedArgs op).count i ≤ 1) :
    ((List.range nodes.length).flatMap (fun i => edgesBetween nodes i j)).insertionSort (fun a b => a.idx ≤ b.idx) =
      (R.filter (fun i => (constVal nodes i).isNone)).map (fun i => ⟨i, j, R.idxOf i⟩) := by
  have hform : (List.range nodes.length).flatMap (fun i => edgesBetween nodes i j) =
      ((List.range nodes.length).filter (fun i => decide (i ∈ R) && (constVal nodes i).isNone)).map
        (fun i => (⟨i, j, R.idxOf i⟩ : GEdge)) := by
    generalize List.range nodes.length = l
    induction l with
    | nil => rfl
    | cons i l ih =>
      rw [List.flatMap_cons, ih]
      by_cases h : i ∈ R ∧ (constVal nodes i).isNone
      · rw [List.filter_cons_of_pos (by simpa using h), List.map_cons]
        have : edgesBetween nodes i j = [⟨i, j, R.idxOf i⟩] := by
          unfold edgesBetween
          simp only [hop, hc, hR]
          rw [if_pos h]
          have : max ((countedArgs op).count i) 1 = 1 := by have := hcount i h.1; omega
          rw [this]
          rfl
        rw [this]; rfl
      · rw [List.filter_cons_of_neg (by simpa using h)]
        have : edgesBetween nodes i j = [] := by
          unfold edgesBetween
          simp only [hop, hc, hR]
          rw [if_neg h]
        rw [this]; rfl
  rw [hform]
  have hperm : List.Perm ((List.range nodes.length).filter (fun i => decide (i ∈ R) && (constVal nodes i).isNone))
      (R.filter (fun i => (constVal nodes i).isNone)) := by
    rw [List.perm_ext_iff_of_nodup (List.nodup_range.filter _) (hn.filter _)]
    intro i
    simp only [List.mem_filter, List.mem_range, Bool.and_eq_true, decide_eq_true_eq]
    constructor
    · rintro ⟨_, h1, h2⟩; exact ⟨h1, h2⟩
    · rintro ⟨h1, h2⟩; exact ⟨hlt i h1, h1, h2⟩
  refine List.Perm.eq_of_pairwise (le := fun a b : GEdge => a.idx ≤ b.idx) ?_ (List.pairwise_insertionSort _ _) ?_
    ((List.perm_insertionSort _ _).trans (hperm.map _))
  · intro a b ha hb h1 h2
    rw [List.mem_insertionSort, List.mem_map] at ha
    rw [List.mem_map] at hb
    obtain ⟨i, hi, rfl⟩ := ha
    obtain ⟨k, hk, rfl⟩ := hb
    have hi' := (List.mem_filter.mp hi).2
    simp only [Bool.and_eq_true, decide_eq_true_eq] at hi'
    have : R.idxOf i = R.idxOf k := Nat.le_antisymm h1 h2
    have : i = k := (List.idxOf_inj hi'.1).mp this
    rw [this]
  · rw [List.pairwise_map]
    have hs : R.Pairwise (fun a b => R.idxOf a ≤ R.idxOf b) := by
      rw [List.pairwise_iff_getElem]
      intro a b ha hb hab
      rw [hn.idxOf_getElem, hn.idxOf_getElem]
      omega
    exact hs.filter _

/-- The tensors of a node whose inputs are all different. -/
theorem inputTensors_nodup (nodes : List (Op V C F K)) (edges : List GEdge) (j : ℕ) (op : Op V C F K)
    (hop : nodes[j]? = some op) (hedges : edges.filter (fun e => decide (e.dst = j)) =
      (edgesOf nodes).filter (fun e => decide (e.dst = j))) (c : Call C K)
    (hc : callOf op = some c) (R : List ℕ) (hR : allInputs c = R) (hn : R.Nodup) (hlt : ∀ i ∈ R, i < nodes.length)
    (hcount : ∀ i ∈ R, (countedArgs op).count i ≤ 1) (env : ℕ → Option V) (val : ℕ → V)
    (henv : ∀ i ∈ R, (constVal nodes i).isNone → env i = some (val i)) :
    inputTensors edges env j = some ((R.filter (fun i => (constVal nodes i).isNone)).map val) := by
  have hj : j < nodes.length := (List.getElem?_eq_some_iff.mp hop).1
  unfold inputTensors
  rw [hedges, inEdges nodes j hj, sorted_nodup nodes j op hop c hc R hR hn hlt hcount]
  have h := mapM_some_of (fun e : GEdge => env e.src) (fun e => val e.src)
    ((R.filter (fun i => (constVal nodes i).isNone)).map (fun i => (⟨i, j, R.idxOf i⟩ : GEdge))) (by
      intro e he
      rw [List.mem_map] at he
      obtain ⟨i, hi, rfl⟩ := he
      have := List.mem_filter.mp hi
      exact henv i this.1 this.2)
  rw [h, List.map_map]
  rfl

/-- The tensors of a node with a single input, repeated. -/
theorem inputTensors_single (nodes : List (Op V C F K)) (edges : List GEdge) (j : ℕ) (op : Op V C F K)
    (hop : nodes[j]? = some op) (hedges : edges.filter (fun e => decide (e.dst = j)) =
      (edgesOf nodes).filter (fun e => decide (e.dst = j))) (c : Call C K)
    (hc : callOf op = some c) (x m : ℕ) (hR : allInputs c = [x]) (hlt : x < nodes.length)
    (hx : (constVal nodes x).isNone) (hcount : countedArgs op = List.replicate (m + 1) x) (env : ℕ → Option V) (v : V)
    (henv : env x = some v) :
    inputTensors edges env j = some (List.replicate (m + 1) v) := by
  have hj : j < nodes.length := (List.getElem?_eq_some_iff.mp hop).1
  unfold inputTensors
  rw [hedges, inEdges nodes j hj, flatMap_single _ _ x hlt]
  · have : edgesBetween nodes x j = (List.range (m + 1)).map (fun t => ⟨x, j, t⟩) := by
      unfold edgesBetween
      simp only [hop, hc, hR]
      rw [if_pos ⟨by simp, hx⟩, hcount, List.count_replicate_self]
      have : max (m + 1) 1 = m + 1 := by omega
      rw [this]
      simp
    rw [this, List.Pairwise.insertionSort_eq]
    · rw [mapM_some_of _ (fun _ => v)]
      · rw [List.map_map]
        simp [Function.comp_def]
      · intro e he
        rw [List.mem_map] at he
        obtain ⟨t, _, rfl⟩ := he
        exact henv
    · rw [List.pairwise_map]
      simp only
      exact List.pairwise_le_range
  · intro i hi
    unfold edgesBetween
    simp only [hop, hc, hR]
    rw [if_neg (by simp [hi])]

end MCT.Torch
