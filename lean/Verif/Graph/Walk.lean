/-
C79: the search for patterns in the graph.

Sources (under /repo/model_compression_toolkit/core/common):
  graph/graph_searches.py        _node_filter, _edge_filter, _walk_filter
  matchers/node_matcher.py       and, or, not
A node matcher is a Boolean function of the node.
-/
import Verif.Graph.Spec

namespace MCT.Graph

variable {N : Type*} [DecidableEq N]

/-- `_node_filter` (graph_searches.py 30-41). -/
def nodeFilter (g : Gr N) (m : N → Bool) : List N := g.nodes.filter m

/-- `_edge_filter` (graph_searches.py 43-61): an edge that matches always leaves a node with edges. -/
def edgeFilter (g : Gr N) (ms mt : N → Bool) : List (Edge N) :=
  g.edges.filter (fun e => (ms e.src && mt e.dst) && decide (0 < (outEdges g e.src).length))

/-- `walk_match` (graph_searches.py 76-111) without its accumulator: the walks from a node that match the
rest of the list. The length test on the results is always met by what the recursion returns. An empty
list of matchers makes the code raise; here nothing is found. -/
def walkMatch (g : Gr N) : List (N → Bool) → N → List (List N)
  | [], _ => []
  | [m], n => if m n then [[n]] else []
  | m :: m' :: rest, n =>
    if m n then
      ((nextNodes g n).filter (fun nn =>
          decide ((nextNodes g nn).length = 1) || decide (rest.length = 0))).flatMap
        (fun nn => (walkMatch g (m' :: rest) nn).map (fun w => n :: w))
    else []

/-- `_walk_filter` (graph_searches.py 113-122): from every node with exactly one outgoing edge. -/
def walkFilter (g : Gr N) (ms : List (N → Bool)) : List (List N) :=
  (g.nodes.filter (fun n => decide ((nextNodes g n).length = 1))).flatMap (walkMatch g ms)

end MCT.Graph

namespace MCT.GraphSpec
open MCT.Graph
variable {N : Type*} [DecidableEq N]

/-- A walk along edges such that each step takes the only edge that leaves its node. -/
def OnlyWay (g : Gr N) : List N → Prop
  | a :: b :: rest => (∃ e, edgesFrom g a = [e] ∧ e.dst = b) ∧ OnlyWay g (b :: rest)
  | _ => True

/-- The nodes of the walk meet the conditions in order. -/
def Matches (ms : List (N → Bool)) (w : List N) : Prop :=
  List.Forall₂ (fun m n => m n = true) ms w

end MCT.GraphSpec

namespace MCT.Graph
open MCT.GraphSpec

set_option linter.unusedSectionVars false
set_option linter.unusedVariables false
set_option linter.unusedSimpArgs false

variable {N : Type*} [DecidableEq N]

theorem next_one {g : Gr N} {a b : N} (h : (nextNodes g a).length = 1) :
    b ∈ nextNodes g a ↔ ∃ e, edgesFrom g a = [e] ∧ e.dst = b := by
  simp only [nextNodes, outEdges, List.length_map] at h ⊢
  obtain ⟨e, he⟩ := List.length_eq_one_iff.1 h
  simp only [edgesFrom, he, List.map_cons, List.map_nil, List.mem_singleton]
  constructor
  · rintro rfl; exact ⟨e, rfl, rfl⟩
  · rintro ⟨e', h1, h2⟩
    obtain rfl : e = e' := by simpa using h1
    exact h2.symm

theorem next_of_only {g : Gr N} {a b : N} (h : ∃ e, edgesFrom g a = [e] ∧ e.dst = b) :
    nextNodes g a = [b] := by
  obtain ⟨e, h1, h2⟩ := h
  simp only [nextNodes, outEdges]
  rw [show g.edges.filter _ = [e] from h1]
  simp [h2]

/-- The walks from a node with one outgoing edge. -/
theorem walkMatch_iff {g : Gr N} : ∀ (ms : List (N → Bool)) (n : N) (w : List N),
    ms ≠ [] → (ms.length = 1 ∨ (nextNodes g n).length = 1) →
    (w ∈ walkMatch g ms n ↔ w.head? = some n ∧ Matches ms w ∧ OnlyWay g w)
  | [], _, _, h, _ => absurd rfl h
  | [m], n, w, _, _ => by
      simp only [walkMatch]
      constructor
      · intro h
        split at h
        · rename_i hm
          obtain rfl := List.mem_singleton.1 h
          exact ⟨rfl, .cons hm .nil, trivial⟩
        · simp at h
      · rintro ⟨h1, h2, -⟩
        cases h2 with
        | cons hm ht =>
          cases ht
          obtain rfl : _ = n := by simpa using h1
          simp [hm]
  | m :: m' :: rest, n, w, _, hn => by
      have hn1 : (nextNodes g n).length = 1 := by simpa using hn
      simp only [walkMatch]
      constructor
      · intro h
        split at h
        · rename_i hm
          obtain ⟨nn, hnn, hw⟩ := List.mem_flatMap.1 h
          obtain ⟨w', hw', rfl⟩ := List.mem_map.1 hw
          obtain ⟨hnx, hc⟩ := List.mem_filter.1 hnn
          have hc' : (m' :: rest).length = 1 ∨ (nextNodes g nn).length = 1 := by
            simp only [Bool.or_eq_true, decide_eq_true_eq] at hc
            rcases hc with hc | hc
            · exact Or.inr hc
            · exact Or.inl (by simp [hc])
          obtain ⟨h1, h2, h3⟩ := (walkMatch_iff (m' :: rest) nn w' (by simp) hc').1 hw'
          refine ⟨rfl, .cons hm h2, ?_⟩
          cases w' with
          | nil => simp at h1
          | cons b w'' =>
            obtain rfl : b = nn := by simpa using h1
            exact ⟨(next_one hn1).1 hnx, h3⟩
        · simp at h
      · rintro ⟨h1, h2, h3⟩
        cases h2 with
        | @cons _ a _ w' hm ht =>
          obtain rfl : a = n := by simpa using h1
          cases ht with
          | @cons _ b _ w'' hm' ht' =>
            simp only [hm, if_true]
            refine List.mem_flatMap.2 ⟨b, List.mem_filter.2 ⟨(next_one hn1).2 h3.1, ?_⟩,
              List.mem_map.2 ⟨b :: w'', ?_, rfl⟩⟩
            · simp only [Bool.or_eq_true, decide_eq_true_eq]
              cases ht' with
              | nil => exact Or.inr rfl
              | cons hm'' ht'' =>
                left
                rw [next_of_only h3.2.1]; rfl
            · refine (walkMatch_iff (m' :: rest) b (b :: w'') (by simp) ?_).2 ⟨rfl, .cons hm' ht', h3.2⟩
              cases ht' with
              | nil => exact Or.inl rfl
              | cons hm'' ht'' => right; rw [next_of_only h3.2.1]; rfl

/-- **C79**: on every graph and for every pattern of at least two conditions, the search returns exactly
the walks whose layers meet the conditions in order and in which every layer but the last has one
outgoing connection, to the next layer. -/
theorem C79_search (g : Gr N) (ms : List (N → Bool)) (h2 : 2 ≤ ms.length) (w : List N) :
    w ∈ walkFilter g ms ↔ (∃ n ∈ g.nodes, w.head? = some n) ∧ Matches ms w ∧ OnlyWay g w := by
  have hne : ms ≠ [] := by rintro rfl; simp at h2
  simp only [walkFilter, List.mem_flatMap, List.mem_filter, decide_eq_true_eq]
  constructor
  · rintro ⟨n, ⟨hn, hn1⟩, hw⟩
    obtain ⟨h1, h3, h4⟩ := (walkMatch_iff ms n w hne (Or.inr hn1)).1 hw
    exact ⟨⟨n, hn, h1⟩, h3, h4⟩
  · rintro ⟨⟨n, hn, h1⟩, h3, h4⟩
    have hn1 : (nextNodes g n).length = 1 := by
      have hl := h3.length_eq
      match w, h1, h4, hl with
      | a :: b :: w', h1, h4, _ =>
        obtain rfl : a = n := by simpa using h1
        rw [next_of_only h4.1]; rfl
      | [a], _, _, hl => simp at hl; omega
    exact ⟨n, ⟨hn, hn1⟩, (walkMatch_iff ms n w hne (Or.inr hn1)).2 ⟨h1, h3, h4⟩⟩

/-- Walks from the same node along only ways, of the same length, are equal. -/
theorem onlyWay_unique {g : Gr N} : ∀ (w w' : List N), w.length = w'.length → w.head? = w'.head? →
    OnlyWay g w → OnlyWay g w' → w = w'
  | [], w', h, _, _, _ => (List.length_eq_zero_iff.1 h.symm).symm
  | [a], [b], _, h, _, _ => by simpa using h
  | a :: b :: w, a' :: b' :: w', hl, hh, h1, h2 => by
      obtain rfl : a = a' := by simpa using hh
      have e1 := next_of_only h1.1
      have e2 := next_of_only h2.1
      obtain rfl : b = b' := by rw [e1] at e2; simpa using e2
      rw [onlyWay_unique (b :: w) (b :: w') (by simpa using hl) rfl h1.2 h2.2]
  | [a], [], h, _, _, _ => by simp at h
  | [a], _ :: _ :: _, h, _, _, _ => by simp at h
  | _ :: _ :: _, [], h, _, _, _ => by simp at h
  | _ :: _ :: _, [_], h, _, _, _ => by simp at h

/-- A match is found at most once from a node. -/
theorem walkMatch_length {g : Gr N} (ms : List (N → Bool)) (n : N) (hne : ms ≠ [])
    (hn : ms.length = 1 ∨ (nextNodes g n).length = 1) : (walkMatch g ms n).length ≤ 1 := by
  induction ms generalizing n with
  | nil => exact absurd rfl hne
  | cons m ms ih =>
    cases ms with
    | nil => simp only [walkMatch]; split <;> simp
    | cons m' rest =>
      have hn1 : (nextNodes g n).length = 1 := by simpa using hn
      obtain ⟨b, hb⟩ := List.length_eq_one_iff.1 hn1
      simp only [walkMatch]
      split
      · rw [hb, List.filter_cons, List.filter_nil]
        split
        · rename_i hc
          simp only [List.flatMap_cons, List.flatMap_nil, List.append_nil, List.length_map]
          apply ih b (by simp)
          simp only [Bool.or_eq_true, decide_eq_true_eq] at hc
          rcases hc with hc | hc
          · exact Or.inr hc
          · exact Or.inl (by simp [hc])
        · simp
      · simp

/-- **C79**: no match is returned twice. -/
theorem C79_once (g : Gr N) (ms : List (N → Bool)) (h2 : 2 ≤ ms.length) (hn : g.nodes.Nodup) :
    (walkFilter g ms).Nodup := by
  have hne : ms ≠ [] := by rintro rfl; simp at h2
  rw [walkFilter, List.nodup_flatMap]
  constructor
  · intro n hm
    have h1 := (List.mem_filter.1 hm).2
    have := walkMatch_length (g := g) ms n hne (Or.inr (by simpa using h1))
    match hw : walkMatch g ms n, this with
    | [], _ => simp
    | [_], _ => simp
    | _ :: _ :: _, h => simp at h
  · refine List.Pairwise.imp_of_mem ?_ (hn.filter _)
    intro a b ha hb hab
    have ha1 := (List.mem_filter.1 ha).2
    have hb1 := (List.mem_filter.1 hb).2
    intro w hwa hwb
    have h1 := ((walkMatch_iff ms a w hne (Or.inr (by simpa using ha1))).1 hwa).1
    have h2 := ((walkMatch_iff ms b w hne (Or.inr (by simpa using hb1))).1 hwb).1
    rw [h1] at h2
    exact hab (by simpa using h2)

/-- Two walks of one pattern that meet do so at the same place, when no layer meets two conditions of
the pattern. -/
theorem matches_same_index {ms : List (N → Bool)} {w w' : List N}
    (hex : ∀ i j (hi : i < ms.length) (hj : j < ms.length) n, ms[i] n = true → ms[j] n = true → i = j)
    (h : Matches ms w) (h' : Matches ms w') {i j : Nat} (hi : i < w.length) (hj : j < w'.length)
    (e : w[i] = w'[j]) : i = j := by
  have l := h.length_eq
  have l' := h'.length_eq
  have a := (List.forall₂_iff_get.1 h).2 i (by omega) hi
  have b := (List.forall₂_iff_get.1 h').2 j (by omega) hj
  simp only [List.get_eq_getElem] at a b
  rw [e] at a
  exact hex i j (by omega) (by omega) _ a b

theorem onlyWay_step {g : Gr N} : ∀ (w : List N) (i : Nat) (hi : i + 1 < w.length), OnlyWay g w →
    ∃ e, edgesFrom g w[i] = [e] ∧ e.dst = w[i + 1]
  | [], i, hi, _ => by simp at hi
  | [a], i, hi, _ => by simp at hi
  | a :: b :: w, 0, _, h => h.1
  | a :: b :: w, i + 1, hi, h => onlyWay_step (b :: w) i (by simpa using hi) h.2

/-- **C79**: two matches of a pattern are the same or have no layer in common, when no layer meets two
of the conditions and the layers after the first have one input. So handling one match does not touch
another one. -/
theorem C79_disjoint {g : Gr N} {ms : List (N → Bool)} (h2 : 2 ≤ ms.length)
    (hex : ∀ i j (hi : i < ms.length) (hj : j < ms.length) n, ms[i] n = true → ms[j] n = true → i = j)
    (hone : ∀ m ∈ ms.tail, ∀ n, m n = true → (edgesInto g n).length ≤ 1)
    {w w' : List N} (hw : w ∈ walkFilter g ms) (hw' : w' ∈ walkFilter g ms) {n : N} (hn : n ∈ w)
    (hn' : n ∈ w') : w = w' := by
  obtain ⟨-, m1, o1⟩ := (C79_search g ms h2 w).1 hw
  obtain ⟨-, m2, o2⟩ := (C79_search g ms h2 w').1 hw'
  have l1 := m1.length_eq
  have l2 := m2.length_eq
  obtain ⟨i, hi, rfl⟩ := List.mem_iff_getElem.1 hn
  obtain ⟨j, hj, hij⟩ := List.mem_iff_getElem.1 hn'
  obtain rfl := matches_same_index hex m1 m2 hi hj hij.symm
  -- going back along the only inputs
  have back : ∀ d k, k + d = i → ∀ (h1 : k < w.length) (h2 : k < w'.length), w[k] = w'[k] := by
    intro d
    induction d with
    | zero =>
      intro k hk _ _
      obtain rfl : k = i := hk
      exact hij.symm
    | succ d ih =>
      intro k hk _ _
      have hk1 : w[k + 1]'(by omega) = w'[k + 1]'(by omega) := ih (k + 1) (by omega) _ _
      obtain ⟨e, e1, e2⟩ := onlyWay_step w k (by omega) o1
      obtain ⟨e', e1', e2'⟩ := onlyWay_step w' k (by omega) o2
      have he : e ∈ edgesFrom g (w[k]'(by omega)) := by rw [e1]; simp
      have he' : e' ∈ edgesFrom g (w'[k]'(by omega)) := by rw [e1']; simp
      obtain ⟨g1, s1⟩ := List.mem_filter.1 he
      obtain ⟨g1', s1'⟩ := List.mem_filter.1 he'
      have hle := hone (ms[k + 1]'(by omega)) (by
        cases ms with
        | nil => simp at h2
        | cons m ms =>
          simp only [List.tail_cons, List.getElem_cons_succ]
          exact List.getElem_mem _) (w[k + 1]'(by omega))
        (by
          have := (List.forall₂_iff_get.1 m1).2 (k + 1) (by omega) (by omega)
          simpa using this)
      have hd : e ∈ edgesInto g (w[k + 1]'(by omega)) := List.mem_filter.2 ⟨g1, by simp [e2]⟩
      have hd' : e' ∈ edgesInto g (w[k + 1]'(by omega)) := List.mem_filter.2 ⟨g1', by simp [e2', hk1]⟩
      have hee : e = e' := by
        match hx : edgesInto g (w[k + 1]'(by omega)), hle with
        | [], _ => rw [hx] at hd; simp at hd
        | [x], _ =>
          rw [hx] at hd hd'
          rw [List.mem_singleton.1 hd, List.mem_singleton.1 hd']
        | _ :: _ :: _, h => simp at h
      have a1 : e.src = w[k]'(by omega) := by simpa using s1
      have a2 : e'.src = w'[k]'(by omega) := by simpa using s1'
      rw [← a1, ← a2, hee]
  apply onlyWay_unique w w' (by omega) _ o1 o2
  have h0 := back i 0 (by omega) (by omega) (by omega)
  rw [List.head?_eq_getElem?, List.head?_eq_getElem?, List.getElem?_eq_getElem (by omega),
    List.getElem?_eq_getElem (by omega), h0]

/-- **C79**: a single condition finds the layers that meet it, a pair of conditions the connections whose
ends meet them. -/
theorem C79_nodes_edges (g : Gr N) (m mt : N → Bool) :
    (∀ n, n ∈ nodeFilter g m ↔ n ∈ g.nodes ∧ m n = true) ∧
      ∀ e, e ∈ edgeFilter g m mt ↔ e ∈ g.edges ∧ m e.src = true ∧ mt e.dst = true := by
  refine ⟨fun n => by simp [nodeFilter], fun e => ?_⟩
  simp only [edgeFilter, List.mem_filter, Bool.and_eq_true, decide_eq_true_eq]
  constructor
  · rintro ⟨h1, h2, -⟩; exact ⟨h1, h2⟩
  · rintro ⟨h1, h2⟩
    exact ⟨h1, h2, List.length_pos_of_mem (List.mem_filter.2 ⟨h1, by simp⟩ : e ∈ outEdges g e.src)⟩

/-- Two convolutions (odd numbers) with their batch normalisations (even numbers above 1); the first
convolution has a second consumer and is not matched. -/
example : walkFilter (⟨[0, 1, 2, 3, 4, 5], [⟨0, 1, 0, 0⟩, ⟨1, 2, 0, 0⟩, ⟨1, 5, 0, 1⟩, ⟨2, 3, 0, 0⟩, ⟨3, 4, 0, 0⟩,
      ⟨4, 5, 0, 0⟩], [0], [(5, 0)]⟩ : Gr Nat) [fun n => n % 2 == 1, fun n => n % 2 == 0] = [[3, 4]] := by
  decide

end MCT.Graph
