/- Nodes that share one module in the built PyTorch model. -/
import Mathlib.Data.List.Sort
import Mathlib.Data.List.Induction
import Mathlib.Data.List.Basic

namespace MCT.Torch.Reuse

set_option linter.unusedVariables false

/-! Paths are relative to /repo/model_compression_toolkit/core/pytorch/. -/

/-- What the reader knows of a node when it decides on reuse: its target, the identities of its weights (tensors of
the module, or constants among its arguments) by name or position, and the rest of the call. -/
structure RNode (T W A : Type) where
  target : T
  weights : List (W × ℕ)
  call : A

variable {T W A : Type} [DecidableEq T]

/-- `create_reuse_group`, reader/graph_builders.py 401-423: the target with the sorted identities of the weights. (The
code builds a string of both; different targets are taken to have different strings.) -/
def groupKey (n : RNode T W A) : T × List ℕ := (n.target, (n.weights.map (·.2)).insertionSort (· ≤ ·))

/-- State of the reader's loop: `seen_targets`, and for each node that was read whether it is reused and its reuse
group. -/
structure RState (T : Type) where
  seen : List ((T × List ℕ) × ℕ)
  marks : List (Bool × Option (T × List ℕ))

/-- One node, reader/graph_builders.py 256-268. -/
def markStep (s : RState T) (n : RNode T W A) : RState T :=
  match s.seen.find? (fun e => decide (e.1 = groupKey n)) with
  | some e =>
    if n.weights.length > 0 then
      ⟨s.seen, s.marks.modify e.2 (fun m => (m.1, some (groupKey n))) ++ [(true, some (groupKey n))]⟩
    else ⟨(groupKey n, s.marks.length) :: s.seen, s.marks ++ [(false, none)]⟩
  | none => ⟨(groupKey n, s.marks.length) :: s.seen, s.marks ++ [(false, none)]⟩

/-- The marks of all nodes. -/
def marks (nodes : List (RNode T W A)) : List (Bool × Option (T × List ℕ)) :=
  (nodes.foldl markStep ⟨[], []⟩).marks

/-- State of the builder: the operation of each node (the node from which it was built) and `reuse_groups`. -/
structure BState (T : Type) where
  ops : List (ℕ × ℕ)
  groups : List ((T × List ℕ) × ℕ)

/-- `_add_modules(reused_nodes_only=False)`, back2framework/pytorch_model_builder.py 309-334. -/
def addFresh (ms : List (Bool × Option (T × List ℕ))) (s : BState T) (j : ℕ) : BState T :=
  match ms[j]? with
  | some (false, some k) => ⟨s.ops ++ [(j, j)], (k, j) :: s.groups⟩
  | some (false, none) => ⟨s.ops ++ [(j, j)], s.groups⟩
  | _ => s

/-- `_add_modules(reused_nodes_only=True)`, back2framework/pytorch_model_builder.py 309-334; `none` for the exception
"Reuse group not found". -/
def addReused (ms : List (Bool × Option (T × List ℕ))) (s : BState T) (j : ℕ) : Option (BState T) :=
  match ms[j]? with
  | some (true, some k) => (s.groups.find? (fun e => decide (e.1 = k))).map (fun e => ⟨s.ops ++ [(j, e.2)], s.groups⟩)
  | some (true, none) => none
  | _ => some s

/-- `_add_all_modules`, back2framework/pytorch_model_builder.py 291-298: for each node of the graph, in the order
`order`, the node from which its operation was built. -/
def addAll (nodes : List (RNode T W A)) (order : List ℕ) : Option (List (ℕ × ℕ)) :=
  (order.foldlM (addReused (marks nodes)) (order.foldl (addFresh (marks nodes)) ⟨[], []⟩)).map (·.ops)

namespace ReuseSpec

/-- The calls `i` and `j` have the same target and the same weights. -/
def Same (nodes : List (RNode T W A)) (i j : ℕ) : Prop := ∃ m n, nodes[i]? = some m ∧ nodes[j]? = some n ∧
  m.target = n.target ∧ (m.weights.map (·.2)).Perm (n.weights.map (·.2))

/-- `i` is the call whose operation call `j` should use: the first with the same target and weights when `j` has
weights, itself otherwise. -/
def Owner (nodes : List (RNode T W A)) (j i : ℕ) : Prop := ∃ n, nodes[j]? = some n ∧
  if n.weights = [] then i = j else Same nodes i j ∧ ∀ k < i, ¬ Same nodes k j

end ReuseSpec

open ReuseSpec

theorem groupKey_eq_iff (m n : RNode T W A) :
    groupKey m = groupKey n ↔ m.target = n.target ∧ (m.weights.map (·.2)).Perm (n.weights.map (·.2)) := by
  unfold groupKey
  rw [Prod.mk.injEq]
  refine and_congr_right (fun _ => ?_)
  constructor
  · intro h
    refine (List.perm_insertionSort (· ≤ ·) _).symm.trans ?_
    rw [h]
    exact List.perm_insertionSort _ _
  · intro h
    apply List.Perm.eq_of_pairwise (le := (· ≤ ·)) (fun a b _ _ h1 h2 => Nat.le_antisymm h1 h2)
      (List.pairwise_insertionSort _ _) (List.pairwise_insertionSort _ _)
    exact ((List.perm_insertionSort _ _).trans h).trans (List.perm_insertionSort _ _).symm

theorem weights_nil_of_key {m n : RNode T W A} (h : groupKey m = groupKey n) : m.weights = [] ↔ n.weights = [] := by
  have := ((groupKey_eq_iff m n).mp h).2.length_eq
  simp only [List.length_map] at this
  rw [← List.length_eq_zero_iff, ← List.length_eq_zero_iff, this]

/-- The first node with the key of `n`. -/
def firstOf (nodes : List (RNode T W A)) (n : RNode T W A) : Option ℕ :=
  nodes.findIdx? (fun m => decide (groupKey m = groupKey n))

theorem firstOf_some {nodes : List (RNode T W A)} {n : RNode T W A} {i : ℕ} (h : firstOf nodes n = some i) :
    (∃ m, nodes[i]? = some m ∧ groupKey m = groupKey n) ∧ ∀ k < i, ∀ m, nodes[k]? = some m → groupKey m ≠ groupKey n := by
  unfold firstOf at h
  rw [List.findIdx?_eq_some_iff_getElem] at h
  obtain ⟨hi, h1, h2⟩ := h
  refine ⟨⟨nodes[i], List.getElem?_eq_getElem hi, by simpa using h1⟩, ?_⟩
  intro k hk m hm
  have := h2 k hk
  rw [List.getElem?_eq_getElem (by omega), Option.some.injEq] at hm
  rw [hm] at this
  simpa using this

theorem firstOf_of {nodes : List (RNode T W A)} {n m : RNode T W A} {j : ℕ} (hj : nodes[j]? = some m)
    (hk : groupKey m = groupKey n) : ∃ i, i ≤ j ∧ firstOf nodes n = some i := by
  cases h : firstOf nodes n with
  | none =>
    unfold firstOf at h
    rw [List.findIdx?_eq_none_iff] at h
    have := h m (List.mem_of_getElem? hj)
    simp [hk] at this
  | some i =>
    refine ⟨i, ?_, rfl⟩
    by_contra hlt
    exact (firstOf_some h).2 j (by omega) m hj hk

theorem firstOf_append (nodes : List (RNode T W A)) (x n : RNode T W A) :
    firstOf (nodes ++ [x]) n =
      (firstOf nodes n).or (if groupKey x = groupKey n then some nodes.length else none) := by
  unfold firstOf
  rw [List.findIdx?_append]
  congr 1
  by_cases h : groupKey x = groupKey n <;> simp [h]

/-- Invariant of the reader's loop over the nodes `nodes`. -/
structure MInv (nodes : List (RNode T W A)) (s : RState T) : Prop where
  len : s.marks.length = nodes.length
  seen : ∀ n : RNode T W A, n.weights ≠ [] →
    (s.seen.find? (fun e => decide (e.1 = groupKey n))).map (·.2) = firstOf nodes n
  plain : ∀ (j : ℕ) (n : RNode T W A), nodes[j]? = some n → n.weights = [] → s.marks[j]? = some (false, none)
  first : ∀ (j : ℕ) (n : RNode T W A), nodes[j]? = some n → n.weights ≠ [] → firstOf nodes n = some j →
    ∃ g, s.marks[j]? = some (false, g) ∧ (g = none ∨ g = some (groupKey n)) ∧
      ((∃ k m, j < k ∧ nodes[k]? = some m ∧ groupKey m = groupKey n) → g = some (groupKey n))
  later : ∀ (j i : ℕ) (n : RNode T W A), nodes[j]? = some n → n.weights ≠ [] → firstOf nodes n = some i → i ≠ j →
    s.marks[j]? = some (true, some (groupKey n))

theorem MInv.fresh {nodes : List (RNode T W A)} {s : RState T} (h : MInv nodes s) (x : RNode T W A)
    (hx : x.weights = [] ∨ firstOf nodes x = none) :
    MInv (nodes ++ [x]) ⟨(groupKey x, s.marks.length) :: s.seen, s.marks ++ [(false, none)]⟩ := by
  have hold : ∀ (j : ℕ) (n : RNode T W A), nodes[j]? = some n → n.weights ≠ [] → groupKey x ≠ groupKey n := by
    intro j n hj hn he
    rcases hx with hx | hx
    · exact hn ((weights_nil_of_key he).mp hx)
    · obtain ⟨i, _, hi⟩ := firstOf_of (n := x) hj he.symm
      rw [hx] at hi
      simp at hi
  have hget : ∀ (j : ℕ) (n : RNode T W A), (nodes ++ [x])[j]? = some n →
      (nodes[j]? = some n ∧ j < nodes.length) ∨ (j = nodes.length ∧ n = x) := by
    intro j n hj
    by_cases hlt : j < nodes.length
    · rw [List.getElem?_append_left hlt] at hj
      exact Or.inl ⟨hj, hlt⟩
    · rw [List.getElem?_append_right (by omega)] at hj
      right
      have := (List.getElem?_eq_some_iff.mp hj).1
      simp only [List.length_cons, List.length_nil] at this
      have h0 : j - nodes.length = 0 := by omega
      rw [h0] at hj
      exact ⟨by omega, by simpa using hj.symm⟩
  constructor
  · simp [h.len]
  · intro n hn
    rw [firstOf_append, ← h.seen n hn, List.find?_cons]
    by_cases he : groupKey x = groupKey n
    · simp only [he, decide_true, Option.map_some, if_true]
      have hnone : firstOf nodes n = none := by
        rcases hx with hx | hx
        · exact absurd ((weights_nil_of_key he).mp hx) hn
        · unfold firstOf at hx ⊢
          rw [he] at hx
          exact hx
      rw [h.seen n hn, hnone, h.len]
      rfl
    · simp [he]
  · intro j n hj hn
    simp only
    rcases hget j n hj with ⟨hj, hlt⟩ | ⟨rfl, rfl⟩
    · rw [List.getElem?_append_left (by rw [h.len]; exact hlt)]
      exact h.plain j n hj hn
    · rw [List.getElem?_append_right (by rw [h.len]), h.len, Nat.sub_self]
      rfl
  · intro j n hj hn hf
    simp only
    rcases hget j n hj with ⟨hj, hlt⟩ | ⟨rfl, rfl⟩
    · rw [List.getElem?_append_left (by rw [h.len]; exact hlt)]
      have hf' : firstOf nodes n = some j := by
        rw [firstOf_append, if_neg (hold j n hj hn), Option.or_none] at hf
        exact hf
      obtain ⟨g, h1, h2, h3⟩ := h.first j n hj hn hf'
      refine ⟨g, h1, h2, ?_⟩
      rintro ⟨k, m, hjk, hm, hk⟩
      rcases hget k m hm with ⟨hm, _⟩ | ⟨_, hmx⟩
      · exact h3 ⟨k, m, hjk, hm, hk⟩
      · rw [hmx] at hk
        exact absurd hk (hold j n hj hn)
    · rw [List.getElem?_append_right (by rw [h.len]), h.len, Nat.sub_self]
      refine ⟨none, rfl, Or.inl rfl, ?_⟩
      rintro ⟨k, m, hjk, hm, hk⟩
      rcases hget k m hm with ⟨_, hh⟩ | ⟨hh, _⟩ <;> omega
  · intro j i n hj hn hf hij
    simp only
    rcases hget j n hj with ⟨hj, hlt⟩ | ⟨rfl, rfl⟩
    · rw [List.getElem?_append_left (by rw [h.len]; exact hlt)]
      rw [firstOf_append, if_neg (hold j n hj hn), Option.or_none] at hf
      exact h.later j i n hj hn hf hij
    · rcases hx with hx | hx
      · exact absurd hx hn
      · rw [firstOf_append, hx] at hf
        simp at hf
        exact absurd hf.symm hij

theorem MInv.again {nodes : List (RNode T W A)} {s : RState T} (h : MInv nodes s) (x : RNode T W A)
    (hx : x.weights ≠ []) (b : ℕ) (hb : firstOf nodes x = some b) :
    MInv (nodes ++ [x]) ⟨s.seen, s.marks.modify b (fun m => (m.1, some (groupKey x))) ++ [(true, some (groupKey x))]⟩ := by
  obtain ⟨⟨m0, hm0, hk0⟩, hfirst⟩ := firstOf_some hb
  have hblt : b < nodes.length := (List.getElem?_eq_some_iff.mp hm0).1
  have hw0 : m0.weights ≠ [] := fun hh => hx ((weights_nil_of_key hk0).mp hh)
  have hfe : ∀ n : RNode T W A, groupKey x = groupKey n → firstOf nodes n = some b := by
    intro n hn
    unfold firstOf at hb ⊢
    rw [hn] at hb
    exact hb
  have hfa : ∀ n : RNode T W A, firstOf (nodes ++ [x]) n = firstOf nodes n := by
    intro n
    rw [firstOf_append]
    split_ifs with he
    · rw [hfe n he]; rfl
    · rw [Option.or_none]
  have hget : ∀ (j : ℕ) (n : RNode T W A), (nodes ++ [x])[j]? = some n →
      (nodes[j]? = some n ∧ j < nodes.length) ∨ (j = nodes.length ∧ n = x) := by
    intro j n hj
    by_cases hlt : j < nodes.length
    · rw [List.getElem?_append_left hlt] at hj
      exact Or.inl ⟨hj, hlt⟩
    · rw [List.getElem?_append_right (by omega)] at hj
      right
      have := (List.getElem?_eq_some_iff.mp hj).1
      simp only [List.length_cons, List.length_nil] at this
      have h0 : j - nodes.length = 0 := by omega
      rw [h0] at hj
      exact ⟨by omega, by simpa using hj.symm⟩
  have hlen : (s.marks.modify b (fun m => (m.1, some (groupKey x)))).length = nodes.length := by
    rw [List.length_modify, h.len]
  constructor
  · simp [h.len]
  · intro n hn
    rw [hfa]
    exact h.seen n hn
  · intro j n hj hn
    simp only
    rcases hget j n hj with ⟨hj, hlt⟩ | ⟨rfl, rfl⟩
    · rw [List.getElem?_append_left (by omega)]
      have : b ≠ j := by
        rintro rfl
        rw [hm0, Option.some.injEq] at hj
        exact hw0 (hj ▸ hn)
      rw [List.getElem?_modify_ne _ _ this]
      exact h.plain j n hj hn
    · exact absurd hn hx
  · intro j n hj hn hf
    simp only
    rw [hfa] at hf
    rcases hget j n hj with ⟨hj, hlt⟩ | ⟨rfl, rfl⟩
    · rw [List.getElem?_append_left (by omega)]
      obtain ⟨g, h1, h2, h3⟩ := h.first j n hj hn hf
      by_cases hbj : b = j
      · subst hbj
        rw [hm0, Option.some.injEq] at hj
        subst hj
        refine ⟨some (groupKey x), ?_, Or.inr (by rw [hk0]), fun _ => by rw [hk0]⟩
        rw [List.getElem?_modify_eq, h1]
        rfl
      · rw [List.getElem?_modify_ne _ _ hbj]
        refine ⟨g, h1, h2, ?_⟩
        rintro ⟨k, m, hjk, hm, hk⟩
        rcases hget k m hm with ⟨hm, _⟩ | ⟨rfl, rfl⟩
        · exact h3 ⟨k, m, hjk, hm, hk⟩
        · rw [hfe n hk] at hf
          simp at hf
          exact absurd hf hbj
    · have := (firstOf_some hf).1
      obtain ⟨m, hm, _⟩ := this
      rw [List.getElem?_eq_none (Nat.le_refl _)] at hm
      simp at hm
  · intro j i n hj hn hf hij
    simp only
    rw [hfa] at hf
    rcases hget j n hj with ⟨hj, hlt⟩ | ⟨rfl, rfl⟩
    · rw [List.getElem?_append_left (by omega)]
      have : b ≠ j := by
        rintro rfl
        rw [hm0, Option.some.injEq] at hj
        subst hj
        rw [hfe m0 hk0.symm] at hf
        simp at hf
        exact hij hf.symm
      rw [List.getElem?_modify_ne _ _ this]
      exact h.later j i n hj hn hf hij
    · rw [List.getElem?_append_right (by omega), hlen, Nat.sub_self]
      rfl

theorem marks_inv (nodes : List (RNode T W A)) : MInv nodes (nodes.foldl markStep ⟨[], []⟩) := by
  induction nodes using List.reverseRecOn with
  | nil => constructor <;> simp [firstOf]
  | append_singleton l x ih =>
    rw [List.foldl_append, List.foldl_cons, List.foldl_nil]
    generalize l.foldl markStep ⟨[], []⟩ = s at ih ⊢
    unfold markStep
    split
    · rename_i e he
      split_ifs with hw
      · have hw' : x.weights ≠ [] := by
          intro hh
          rw [hh] at hw
          simp at hw
        have := ih.seen x hw'
        rw [he] at this
        exact ih.again x hw' e.2 this.symm
      · have hw' : x.weights = [] := by
          rw [← List.length_eq_zero_iff]
          omega
        exact ih.fresh x (Or.inl hw')
    · rename_i he
      by_cases hw : x.weights = []
      · exact ih.fresh x (Or.inl hw)
      · have := ih.seen x hw
        rw [he] at this
        exact ih.fresh x (Or.inr this.symm)

/-- What the marks say, for nodes of the list. -/
theorem marks_cases (nodes : List (RNode T W A)) (j : ℕ) (n : RNode T W A) (hj : nodes[j]? = some n) :
    (∃ g, (marks nodes)[j]? = some (false, g) ∧ Owner nodes j j ∧ (∀ k, g = some k → k = groupKey n ∧ n.weights ≠ [])
      ∧ (∀ k m, k ≠ j → n.weights ≠ [] → nodes[k]? = some m → groupKey m = groupKey n → g = some (groupKey n))) ∨
    (∃ i, i ≠ j ∧ (marks nodes)[j]? = some (true, some (groupKey n)) ∧ n.weights ≠ [] ∧ firstOf nodes n = some i) := by
  have h := marks_inv nodes
  by_cases hw : n.weights = []
  · left
    exact ⟨none, h.plain j n hj hw, ⟨n, hj, by rw [if_pos hw]⟩, by simp, fun k m _ hn => absurd hw hn⟩
  · obtain ⟨i, hij, hi⟩ := firstOf_of (n := n) hj rfl
    by_cases he : i = j
    · subst he
      left
      obtain ⟨g, h1, h2, h3⟩ := h.first i n hj hw hi
      refine ⟨g, h1, ⟨n, hj, ?_⟩, ?_, ?_⟩
      · rw [if_neg hw]
        refine ⟨⟨n, n, hj, hj, rfl, List.Perm.refl _⟩, ?_⟩
        rintro k hk ⟨m, n', hm, hn', hsame⟩
        rw [hj, Option.some.injEq] at hn'
        subst hn'
        exact (firstOf_some hi).2 k hk m hm ((groupKey_eq_iff _ _).mpr hsame)
      · intro k hk
        rcases h2 with h2 | h2
        · rw [h2] at hk; simp at hk
        · rw [h2, Option.some.injEq] at hk
          exact ⟨hk.symm, hw⟩
      · intro k m hk _ hm hkey
        apply h3
        refine ⟨k, m, ?_, hm, hkey⟩
        by_contra hlt
        exact (firstOf_some hi).2 k (by omega) m hm hkey
    · right
      exact ⟨i, he, h.later j i n hj hw hi he, hw, hi⟩

theorem owner_iff (nodes : List (RNode T W A)) (j i : ℕ) (n : RNode T W A) (hj : nodes[j]? = some n)
    (hw : n.weights ≠ []) : Owner nodes j i ↔ firstOf nodes n = some i := by
  constructor
  · rintro ⟨n', hn', h⟩
    rw [hj, Option.some.injEq] at hn'
    subst hn'
    rw [if_neg hw] at h
    obtain ⟨⟨m, n', hm, hn', hs⟩, h2⟩ := h
    rw [hj, Option.some.injEq] at hn'
    subst hn'
    obtain ⟨k, hk, hf⟩ := firstOf_of (n := n) hm ((groupKey_eq_iff _ _).mpr hs)
    rcases Nat.lt_or_ge k i with hlt | hge
    · obtain ⟨⟨m', hm', hk'⟩, _⟩ := firstOf_some hf
      exact absurd ⟨m', n, hm', hj, (groupKey_eq_iff _ _).mp hk'⟩ (h2 k hlt)
    · rw [hf, show k = i by omega]
  · intro h
    obtain ⟨⟨m, hm, hk⟩, h2⟩ := firstOf_some h
    refine ⟨n, hj, ?_⟩
    rw [if_neg hw]
    refine ⟨⟨m, n, hm, hj, (groupKey_eq_iff _ _).mp hk⟩, ?_⟩
    rintro k hk ⟨m', n', hm', hn', hs⟩
    rw [hj, Option.some.injEq] at hn'
    subst hn'
    exact h2 k hk m' hm' ((groupKey_eq_iff _ _).mpr hs)

/-! ### The builder -/

theorem fresh_ops (ms : List (Bool × Option (T × List ℕ))) (order : List ℕ) (s : BState T) :
    (∀ p, p ∈ (order.foldl (addFresh ms) s).ops ↔ p ∈ s.ops ∨ (p.1 ∈ order ∧ p.2 = p.1 ∧ ∃ g, ms[p.1]? = some (false, g))) ∧
    (∀ p, p ∈ (order.foldl (addFresh ms) s).groups ↔ p ∈ s.groups ∨ (p.2 ∈ order ∧ ms[p.2]? = some (false, some p.1))) := by
  induction order generalizing s with
  | nil => simp
  | cons j order ih =>
    rw [List.foldl_cons]
    obtain ⟨h1, h2⟩ := ih (addFresh ms s j)
    have ho : ∀ p, p ∈ (addFresh ms s j).ops ↔ p ∈ s.ops ∨ (p.1 = j ∧ p.2 = p.1 ∧ ∃ g, ms[p.1]? = some (false, g)) := by
      rintro ⟨a, b⟩
      unfold addFresh
      split
      · rename_i k hk
        simp only [List.mem_append, List.mem_singleton, Prod.mk.injEq]
        constructor
        · rintro (h | ⟨rfl, rfl⟩)
          · exact Or.inl h
          · exact Or.inr ⟨rfl, rfl, _, hk⟩
        · rintro (h | ⟨rfl, rfl, _⟩)
          · exact Or.inl h
          · exact Or.inr ⟨rfl, rfl⟩
      · rename_i hk
        simp only [List.mem_append, List.mem_singleton, Prod.mk.injEq]
        constructor
        · rintro (h | ⟨rfl, rfl⟩)
          · exact Or.inl h
          · exact Or.inr ⟨rfl, rfl, _, hk⟩
        · rintro (h | ⟨rfl, rfl, _⟩)
          · exact Or.inl h
          · exact Or.inr ⟨rfl, rfl⟩
      · rename_i hn1 hn2
        constructor
        · exact Or.inl
        · rintro (h | ⟨ha, _, g, hg⟩)
          · exact h
          · simp only at ha hg
            rw [ha] at hg
            cases g with
            | none => exact absurd hg hn2
            | some k => exact absurd hg (hn1 k)
    have hg : ∀ p, p ∈ (addFresh ms s j).groups ↔ p ∈ s.groups ∨ (p.2 = j ∧ ms[p.2]? = some (false, some p.1)) := by
      rintro ⟨a, b⟩
      unfold addFresh
      split
      · rename_i k hk
        simp only [List.mem_cons, Prod.mk.injEq]
        constructor
        · rintro (⟨rfl, rfl⟩ | h)
          · exact Or.inr ⟨rfl, hk⟩
          · exact Or.inl h
        · rintro (h | ⟨rfl, h⟩)
          · exact Or.inr h
          · rw [hk] at h
            simp only [Option.some.injEq, Prod.mk.injEq, true_and] at h
            exact Or.inl ⟨h.symm, rfl⟩
      · rename_i hk
        constructor
        · exact Or.inl
        · rintro (h | ⟨rfl, h⟩)
          · exact h
          · simp only at h; rw [hk] at h; simp at h
      · rename_i hn1 hn2
        constructor
        · exact Or.inl
        · rintro (h | ⟨rfl, h⟩)
          · exact h
          · exact absurd h (hn1 a)
    constructor
    · intro p
      rw [h1, ho]
      simp only [List.mem_cons]
      tauto
    · intro p
      rw [h2, hg]
      simp only [List.mem_cons]
      tauto

theorem reused_ops (ms : List (Bool × Option (T × List ℕ))) (order : List ℕ) (s : BState T)
    (hm : ∀ j ∈ order, ms[j]? ≠ some (true, none)) :
    match order.foldlM (addReused ms) s with
    | none => ∃ j ∈ order, ∃ k, ms[j]? = some (true, some k) ∧ s.groups.find? (fun e => decide (e.1 = k)) = none
    | some s' => s'.groups = s.groups ∧
      (∀ j ∈ order, ∀ k, ms[j]? = some (true, some k) → (s.groups.find? (fun e => decide (e.1 = k))).isSome) ∧
      ∀ p, p ∈ s'.ops ↔ p ∈ s.ops ∨ (p.1 ∈ order ∧ ∃ k e, ms[p.1]? = some (true, some k) ∧
        s.groups.find? (fun e => decide (e.1 = k)) = some e ∧ e.2 = p.2) := by
  induction order generalizing s with
  | nil => simp [pure]
  | cons j order ih =>
    rw [List.foldlM_cons]
    cases hs : addReused ms s j with
    | none =>
      simp only [Option.bind_eq_bind, Option.bind_none]
      unfold addReused at hs
      split at hs
      · rename_i k hk
        rw [Option.map_eq_none_iff] at hs
        exact ⟨j, by simp, k, hk, hs⟩
      · rename_i hk
        exact absurd hk (hm j (by simp))
      · simp at hs
    | some s1 =>
      simp only [Option.bind_eq_bind, Option.bind_some]
      have hstep : s1.groups = s.groups ∧
          (∀ k, ms[j]? = some (true, some k) → (s.groups.find? (fun e => decide (e.1 = k))).isSome) ∧
          ∀ p, p ∈ s1.ops ↔ p ∈ s.ops ∨ (p.1 = j ∧ ∃ k e, ms[p.1]? = some (true, some k) ∧
            s.groups.find? (fun e => decide (e.1 = k)) = some e ∧ e.2 = p.2) := by
        unfold addReused at hs
        split at hs
        · rename_i k hk
          rw [Option.map_eq_some_iff] at hs
          obtain ⟨e, he, rfl⟩ := hs
          refine ⟨rfl, ?_, ?_⟩
          · intro k' hk'
            rw [hk] at hk'
            simp only [Option.some.injEq, Prod.mk.injEq, true_and] at hk'
            rw [← hk', he]; rfl
          · rintro ⟨a, b⟩
            simp only [List.mem_append, List.mem_singleton, Prod.mk.injEq]
            constructor
            · rintro (h | ⟨rfl, rfl⟩)
              · exact Or.inl h
              · exact Or.inr ⟨rfl, k, e, hk, he, rfl⟩
            · rintro (h | ⟨rfl, k', e', hk', he', rfl⟩)
              · exact Or.inl h
              · rw [hk] at hk'
                simp only [Option.some.injEq, Prod.mk.injEq, true_and] at hk'
                subst hk'
                rw [he, Option.some.injEq] at he'
                exact Or.inr ⟨rfl, by rw [he']⟩
        · simp at hs
        · rename_i h1 h2
          simp only [Option.some.injEq] at hs
          subst hs
          refine ⟨rfl, fun k hk => absurd hk (h1 k), ?_⟩
          rintro ⟨a, b⟩
          constructor
          · exact Or.inl
          · rintro (h | ⟨rfl, k', e', hk', _⟩)
            · exact h
            · exact absurd hk' (h1 k')
      obtain ⟨hg, hfound, hops⟩ := hstep
      have := ih s1 (fun j hj => hm j (by simp [hj]))
      rw [hg] at this
      generalize order.foldlM (addReused ms) s1 = r at this
      cases r with
      | none =>
        obtain ⟨j', hj', h⟩ := this
        exact ⟨j', by simp [hj'], h⟩
      | some s' =>
        obtain ⟨h1, h2, h3⟩ := this
        refine ⟨h1, ?_, ?_⟩
        · intro j' hj' k hk
          rcases List.mem_cons.mp hj' with rfl | hj'
          · exact hfound k hk
          · exact h2 j' hj' k hk
        · intro p
          rw [h3, hops]
          simp only [List.mem_cons]
          constructor
          · rintro ((h | ⟨h, h'⟩) | ⟨h, h'⟩)
            · exact Or.inl h
            · exact Or.inr ⟨Or.inl h, h'⟩
            · exact Or.inr ⟨Or.inr h, h'⟩
          · rintro (h | ⟨h | h, h'⟩)
            · exact Or.inl (Or.inl h)
            · exact Or.inl (Or.inr ⟨h, h'⟩)
            · exact Or.inr ⟨h, h'⟩

/-- The group of a reused node finds the first node of the group when it is in the graph, and nothing otherwise. -/
theorem groups_find (nodes : List (RNode T W A)) (order : List ℕ) (ho : ∀ j ∈ order, j < nodes.length) (j i : ℕ)
    (n : RNode T W A) (hj : nodes[j]? = some n) (hw : n.weights ≠ []) (hi : firstOf nodes n = some i) (hij : i ≠ j) :
    ((order.foldl (addFresh (marks nodes)) ⟨[], []⟩).groups.find? (fun e => decide (e.1 = groupKey n))) =
      if i ∈ order then some (groupKey n, i) else none := by
  have hmem := (fresh_ops (marks nodes) order ⟨[], []⟩).2
  have hall : ∀ e ∈ (order.foldl (addFresh (marks nodes)) ⟨[], []⟩).groups, e.1 = groupKey n → e.2 = i ∧ i ∈ order := by
    intro e he hk
    rw [hmem] at he
    rcases he with he | ⟨ho', hmk⟩
    · simp at he
    · have hn' : nodes[e.2]? = some (nodes[e.2]'(ho _ ho')) := List.getElem?_eq_getElem _
      rcases marks_cases nodes e.2 _ hn' with ⟨g, h1, h2, h3, _⟩ | ⟨i', _, h1, _⟩
      · rw [hmk] at h1
        simp only [Option.some.injEq, Prod.mk.injEq, true_and] at h1
        obtain ⟨h4, h5⟩ := h3 e.1 h1.symm
        rw [owner_iff nodes _ _ _ hn' h5] at h2
        unfold firstOf at h2 hi
        rw [← h4, hk, hi, Option.some.injEq] at h2
        exact ⟨h2.symm, h2 ▸ ho'⟩
      · rw [hmk] at h1
        simp at h1
  split_ifs with hio
  · have hex : (groupKey n, i) ∈ (order.foldl (addFresh (marks nodes)) ⟨[], []⟩).groups := by
      rw [hmem]
      right
      refine ⟨hio, ?_⟩
      simp only
      obtain ⟨⟨m, hm, hk⟩, _⟩ := firstOf_some hi
      have hwm : m.weights ≠ [] := fun hh => hw ((weights_nil_of_key hk).mp hh)
      rcases marks_cases nodes i m hm with ⟨g, h1, h2, h3, h4⟩ | ⟨i', hne, _, _, h2⟩
      · rw [h1, h4 j n (Ne.symm hij) hwm hj hk.symm, hk]
      · unfold firstOf at h2 hi
        rw [hk, hi, Option.some.injEq] at h2
        exact absurd h2.symm hne
    cases hfd : (order.foldl (addFresh (marks nodes)) ⟨[], []⟩).groups.find? (fun e => decide (e.1 = groupKey n)) with
    | none =>
      rw [List.find?_eq_none] at hfd
      exact absurd (hfd _ hex) (by simp)
    | some e =>
      have h1 : e.1 = groupKey n := by simpa using List.find?_some hfd
      have h2 := hall e (List.mem_of_find?_eq_some hfd) h1
      rw [← h1, ← h2.1]
  · rw [List.find?_eq_none]
    intro e he hk
    exact hio (hall e he (by simpa using hk)).2

/-- **C100**: the operation of a call is the one built for the first call with the same target and the same weights;
a call without weights has its own. -/
theorem C100_owner (nodes : List (RNode T W A)) (order : List ℕ) (ho : ∀ j ∈ order, j < nodes.length)
    (ops : List (ℕ × ℕ)) (h : addAll nodes order = some ops) (j i : ℕ) :
    (j, i) ∈ ops ↔ j ∈ order ∧ Owner nodes j i := by
  have hm : ∀ j ∈ order, (marks nodes)[j]? ≠ some (true, none) := by
    intro j hj hh
    have hn' : nodes[j]? = some (nodes[j]'(ho _ hj)) := List.getElem?_eq_getElem _
    rcases marks_cases nodes j _ hn' with ⟨g, h1, _⟩ | ⟨i', _, h1, _⟩ <;> rw [hh] at h1 <;> simp at h1
  have hr := reused_ops (marks nodes) order (order.foldl (addFresh (marks nodes)) ⟨[], []⟩) hm
  unfold addAll at h
  rw [Option.map_eq_some_iff] at h
  obtain ⟨s, hs, rfl⟩ := h
  rw [hs] at hr
  obtain ⟨_, _, hops⟩ := hr
  rw [hops, (fresh_ops (marks nodes) order ⟨[], []⟩).1]
  by_cases hj : j ∈ order
  · have hn' : nodes[j]? = some (nodes[j]'(ho _ hj)) := List.getElem?_eq_getElem _
    rcases marks_cases nodes j _ hn' with ⟨g, h1, h2, _⟩ | ⟨i', hne, h1, hw, hi⟩
    · have huniq : Owner nodes j i ↔ i = j := by
        constructor
        · intro h'
          by_cases hw : (nodes[j]'(ho _ hj)).weights = []
          · obtain ⟨n, hn, h'⟩ := h'
            rw [hn', Option.some.injEq] at hn
            subst hn
            rw [if_pos hw] at h'
            exact h'
          · rw [owner_iff nodes j _ _ hn' hw] at h2 h'
            rw [h2, Option.some.injEq] at h'
            exact h'.symm
        · rintro rfl; exact h2
      rw [huniq]
      simp only [List.not_mem_nil, false_or, hj, true_and, h1, Option.some.injEq, Prod.mk.injEq, reduceCtorEq, false_and,
        exists_false, or_false, exists_eq', and_true]
    · rw [owner_iff nodes j i _ hn' hw]
      have hf := groups_find nodes order ho j i' _ hn' hw hi hne
      simp only [List.not_mem_nil, false_or, hj, true_and, h1, Option.some.injEq, Prod.mk.injEq, reduceCtorEq, false_and,
        exists_false, and_false]
      constructor
      · rintro ⟨k, e, rfl, he, rfl⟩
        rw [hf] at he
        split_ifs at he
        simp only [Option.some.injEq] at he
        rw [hi, ← he]
      · intro hi'
        rw [hi, Option.some.injEq] at hi'
        subst hi'
        have hr2 := reused_ops (marks nodes) order (order.foldl (addFresh (marks nodes)) ⟨[], []⟩) hm
        rw [hs] at hr2
        have := hr2.2.1 j hj _ h1
        rw [hf] at this
        split_ifs at this with hio
        · exact ⟨_, _, rfl, by rw [hf, if_pos hio], rfl⟩
        · simp at this
  · simp [hj]

/-- **C100**: the model can be built exactly when the graph has, with each call, the first call of the same module. -/
theorem C100_defined (nodes : List (RNode T W A)) (order : List ℕ) (ho : ∀ j ∈ order, j < nodes.length) :
    (addAll nodes order).isSome ↔ ∀ j ∈ order, ∀ i, Owner nodes j i → i ∈ order := by
  have hm : ∀ j ∈ order, (marks nodes)[j]? ≠ some (true, none) := by
    intro j hj hh
    have hn' : nodes[j]? = some (nodes[j]'(ho _ hj)) := List.getElem?_eq_getElem _
    rcases marks_cases nodes j _ hn' with ⟨g, h1, _⟩ | ⟨i', _, h1, _⟩ <;> rw [hh] at h1 <;> simp at h1
  have hr := reused_ops (marks nodes) order (order.foldl (addFresh (marks nodes)) ⟨[], []⟩) hm
  unfold addAll
  rw [Option.isSome_map]
  cases hs : order.foldlM (addReused (marks nodes)) (order.foldl (addFresh (marks nodes)) ⟨[], []⟩) with
  | none =>
    rw [hs] at hr
    obtain ⟨j, hj, k, hk, hnone⟩ := hr
    constructor
    · intro h; simp at h
    · intro h
      have hn' : nodes[j]? = some (nodes[j]'(ho _ hj)) := List.getElem?_eq_getElem _
      rcases marks_cases nodes j _ hn' with ⟨g, h1, _⟩ | ⟨i', hne, h1, hw, hi⟩
      · rw [hk] at h1; simp at h1
      · rw [hk] at h1
        simp only [Option.some.injEq, Prod.mk.injEq, true_and] at h1
        have hio := h j hj i' ((owner_iff nodes j i' _ hn' hw).mpr hi)
        rw [h1, groups_find nodes order ho j i' _ hn' hw hi hne, if_pos hio] at hnone
        simp at hnone
  | some s =>
    rw [hs] at hr
    obtain ⟨_, hf, _⟩ := hr
    constructor
    · intro _ j hj i hown
      have hn' : nodes[j]? = some (nodes[j]'(ho _ hj)) := List.getElem?_eq_getElem _
      rcases marks_cases nodes j _ hn' with ⟨g, h1, h2, _⟩ | ⟨i', hne, h1, hw, hi⟩
      · by_cases hw : (nodes[j]'(ho _ hj)).weights = []
        · obtain ⟨n, hn, h'⟩ := hown
          rw [hn', Option.some.injEq] at hn
          subst hn
          rw [if_pos hw] at h'
          rw [h']; exact hj
        · rw [owner_iff nodes j _ _ hn' hw] at h2 hown
          rw [h2, Option.some.injEq] at hown
          exact hown ▸ hj
      · rw [owner_iff nodes j _ _ hn' hw, hi, Option.some.injEq] at hown
        subst hown
        have := hf j hj _ h1
        rw [groups_find nodes order ho j i' _ hn' hw hi hne] at this
        split_ifs at this with hio
        · exact hio
        · simp at this
    · intro _; rfl

/-- **C100**: two calls with weights run the same operation exactly when their targets and weights are the same. -/
theorem C100_shared (nodes : List (RNode T W A)) (order : List ℕ) (ho : ∀ j ∈ order, j < nodes.length)
    (ops : List (ℕ × ℕ)) (h : addAll nodes order = some ops) (a b : ℕ) (ha : a ∈ order) (hb : b ∈ order) (m n : RNode T W A)
    (hm : nodes[a]? = some m) (hn : nodes[b]? = some n) (hwm : m.weights ≠ []) (hwn : n.weights ≠ []) :
    (∃ i, (a, i) ∈ ops ∧ (b, i) ∈ ops) ↔ Same nodes a b := by
  constructor
  · rintro ⟨i, h1, h2⟩
    rw [C100_owner nodes order ho ops h, owner_iff nodes _ _ _ hm hwm] at h1
    rw [C100_owner nodes order ho ops h, owner_iff nodes _ _ _ hn hwn] at h2
    obtain ⟨⟨x, hx, hk⟩, _⟩ := firstOf_some h1.2
    obtain ⟨⟨y, hy, hk'⟩, _⟩ := firstOf_some h2.2
    rw [hx, Option.some.injEq] at hy
    subst hy
    exact ⟨m, n, hm, hn, (groupKey_eq_iff _ _).mp (hk.symm.trans hk')⟩
  · rintro ⟨m', n', hm', hn', hs⟩
    rw [hm, Option.some.injEq] at hm'
    rw [hn, Option.some.injEq] at hn'
    subst hm' hn'
    have hk := (groupKey_eq_iff m n).mpr hs
    obtain ⟨i, _, hi⟩ := firstOf_of (n := m) hm rfl
    refine ⟨i, ?_, ?_⟩
    · rw [C100_owner nodes order ho ops h, owner_iff nodes _ _ _ hm hwm]
      exact ⟨ha, hi⟩
    · rw [C100_owner nodes order ho ops h, owner_iff nodes _ _ _ hn hwn]
      refine ⟨hb, ?_⟩
      unfold firstOf at hi ⊢
      rw [← hk]
      exact hi

/-- A convolution called twice, another module between, a function with a constant. -/
def exNodes : List (RNode String ℕ (List ℕ)) :=
  [⟨"x", [], []⟩, ⟨"conv", [(0, 7), (1, 8)], []⟩, ⟨"bn", [(0, 9)], []⟩, ⟨"conv", [(0, 7), (1, 8)], []⟩, ⟨"relu", [], []⟩,
    ⟨"relu", [], []⟩]

example : addAll exNodes [0, 3, 1, 4, 2, 5] = some [(0, 0), (1, 1), (4, 4), (2, 2), (5, 5), (3, 1)] := by decide +kernel

/-- When the result of the first call of a module is not used, its node is not in the graph (C99), and the model cannot
be built, although the traced model runs. -/
theorem C100_first_call_violated : ∃ (nodes : List (RNode String ℕ (List ℕ))) (order : List ℕ), order ≠ [] ∧
    (∀ j ∈ order, j < nodes.length) ∧ addAll nodes order = none :=
  ⟨exNodes, [0, 2, 3], by decide, by decide, by decide +kernel⟩

/-- Functions: `sub(x, c)` and then `sub(c, x)` count as one operation with the same weights, so the second runs the
operation built (and, when the constant is quantized, wrapped with the position of the constant and the other arguments)
for the first, exporter/model_wrapper/pytorch/builder/fully_quantized_model_builder.py 45-64. -/
theorem C100_function_violated : ∃ (nodes : List (RNode String ℕ (List ℕ))) (order : List ℕ) (ops : List (ℕ × ℕ)) (j i : ℕ),
    addAll nodes order = some ops ∧ (j, i) ∈ ops ∧
    (nodes[j]?).map (·.weights) = some [(0, 7)] ∧ (nodes[i]?).map (·.weights) = some [(1, 7)] ∧
    (nodes[j]?).map (·.call) = some [2] ∧ (nodes[i]?).map (·.call) = some [] :=
  ⟨[⟨"x", [], []⟩, ⟨"sub", [(1, 7)], []⟩, ⟨"sub", [(0, 7)], [2]⟩], [0, 1, 2], [(0, 0), (1, 1), (2, 1)], 2, 1,
    by decide +kernel⟩

end MCT.Torch.Reuse
