/-
C81: replacing fused operations by single nodes.

The proofs look at a graph through the list of pairs (source, sink) of its edges.
-/
import Verif.Fusing.Records
import Verif.Graph.Lemmas

namespace MCT.FusingSpec
open MCT.Graph MCT.GraphSpec MCT.Fusing

variable {N P C : Type} [DecidableEq N] [DecidableEq C]

/-- The connections of a graph, with repetitions. -/
def links (g : Gr N) : List (N × N) := g.edges.map (fun e => (e.src, e.dst))

/-- What a layer becomes: the fused node of its operation, or itself. -/
def becomes (ops : List (N × List N)) (n : N) : N :=
  match ops.find? (fun p => decide (n ∈ p.2)) with
  | some p => p.1
  | none => n

/-- The layer is in an operation, after its first layer. -/
def Inside (ops : List (N × List N)) (n : N) : Prop := ∃ p ∈ ops, n ∈ p.2.tail

instance (ops : List (N × List N)) (n : N) : Decidable (Inside ops n) := by
  unfold Inside; infer_instance

end MCT.FusingSpec

namespace MCT.Fusing
open MCT.Graph MCT.GraphSpec MCT.FusingSpec

set_option linter.unusedSectionVars false
set_option linter.unusedVariables false
set_option linter.unusedSimpArgs false

variable {N P C : Type} [DecidableEq N] [DecidableEq C]

theorem eraseLast_perm_pair {g : Gr N} {u v : N} (h : (u, v) ∈ links g) :
    ∃ g', removeEdge g u v = some g' ∧ (links g).Perm ((u, v) :: links g') ∧ g'.nodes = g.nodes ∧
      g'.inputs = g.inputs ∧ g'.outputs = g.outputs := by
  obtain ⟨e, he, hp⟩ := List.mem_map.1 h
  simp only [Prod.mk.injEq] at hp
  have hany : g.edges.any (fun e => decide (e.src = u) && decide (e.dst = v)) = true := by
    rw [List.any_eq_true]
    exact ⟨e, he, by simp [hp]⟩
  obtain ⟨x, -, hx, hperm⟩ := eraseLast_perm _ g.edges hany
  refine ⟨{ g with edges := eraseLast (fun e => decide (e.src = u) && decide (e.dst = v)) g.edges }, ?_, ?_,
    rfl, rfl, rfl⟩
  · rw [removeEdge]; simp only [hany, if_true]
  · have := hperm.map (fun e : Edge N => (e.src, e.dst))
    rw [List.map_cons] at this
    have hx' : x.src = u ∧ x.dst = v := by simpa using hx
    rw [hx'.1, hx'.2] at this
    exact this

theorem links_addEdge (g : Gr N) (e : Edge N) : links (addEdge g e) = links g ++ [(e.src, e.dst)] := by
  simp only [links, addEdge, addNode]
  split <;> split <;> simp

theorem addEdge_same (g : Gr N) (e : Edge N) :
    (addEdge g e).inputs = g.inputs ∧ (addEdge g e).outputs = g.outputs := by
  simp only [addEdge, addNode]
  split <;> split <;> exact ⟨rfl, rfl⟩

theorem mem_addNode (g : Gr N) (n m : N) : m ∈ (addNode g n).nodes ↔ m ∈ g.nodes ∨ m = n := by
  rw [addNode]
  split
  · rename_i h
    constructor
    · exact Or.inl
    · rintro (h1 | rfl)
      · exact h1
      · exact h
  · simp

theorem addNode_nodup {g : Gr N} (n : N) (h : g.nodes.Nodup) : (addNode g n).nodes.Nodup := by
  rw [addNode]
  split
  · exact h
  · rename_i hn
    simp only
    rw [List.nodup_append]
    refine ⟨h, by simp, ?_⟩
    intro a ha b hb
    obtain rfl : b = n := by simpa using hb
    rintro rfl
    exact hn ha

theorem mem_addEdge (g : Gr N) (e : Edge N) (m : N) :
    m ∈ (addEdge g e).nodes ↔ m ∈ g.nodes ∨ m = e.src ∨ m = e.dst := by
  rw [addEdge]
  simp only [mem_addNode, or_assoc]

theorem addEdge_nodup {g : Gr N} (e : Edge N) (h : g.nodes.Nodup) : (addEdge g e).nodes.Nodup := by
  rw [addEdge]
  exact addNode_nodup _ (addNode_nodup _ h)

theorem firstEdge_some {g : Gr N} {u v : N} (h : (u, v) ∈ links g) : ∃ e, firstEdge g u v = some e := by
  obtain ⟨e, he, hp⟩ := List.mem_map.1 h
  simp only [Prod.mk.injEq] at hp
  rw [firstEdge]
  cases hf : g.edges.find? (fun e => decide (e.src = u) && decide (e.dst = v)) with
  | some x => exact ⟨x, rfl⟩
  | none =>
    have := List.find?_eq_none.1 hf e he
    simp [hp] at this

/-- What stays the same, and the nodes, after edges were moved to the fused node. -/
structure Moved (g g' : Gr N) (fused : N) : Prop where
  nodup : g.nodes.Nodup → g'.nodes.Nodup
  nodes : ∀ m, m ∈ g.nodes → m ∈ g'.nodes
  back : ∀ m, m ∈ g'.nodes → m ∈ g.nodes ∨ m = fused
  inputs : g'.inputs = g.inputs
  outputs : g'.outputs = g.outputs

theorem Moved.refl (g : Gr N) (fused : N) : Moved g g fused :=
  ⟨fun h => h, fun _ h => h, fun _ h => Or.inl h, rfl, rfl⟩

theorem Moved.trans {g g' g'' : Gr N} {fused : N} (a : Moved g g' fused) (b : Moved g' g'' fused) :
    Moved g g'' fused :=
  ⟨fun h => b.nodup (a.nodup h), fun m h => b.nodes m (a.nodes m h),
    fun m h => (b.back m h).elim (a.back m) Or.inr, b.inputs.trans a.inputs, b.outputs.trans a.outputs⟩

theorem fuseIn_loop (first fused : N) : ∀ (L : List N) (g : Gr N) (R : List (N × N)),
    (links g).Perm (L.map (fun p => (p, first)) ++ R) → (∀ p ∈ L, p ∈ g.nodes) →
    ∃ g', L.foldlM (fun g p => do
        let e ← firstEdge g p first
        removeEdge (addEdge g ⟨p, fused, e.si, e.di⟩) p first) g = some g' ∧
      (links g').Perm (L.map (fun p => (p, fused)) ++ R) ∧ Moved g g' fused
  | [], g, R, h, _ => ⟨g, rfl, h, Moved.refl g fused⟩
  | p :: L, g, R, h, hn => by
      have hmem : (p, first) ∈ links g := h.mem_iff.2 (by simp)
      obtain ⟨e, he⟩ := firstEdge_some hmem
      obtain ⟨g1, h1, h2, h3, h4, h5⟩ := eraseLast_perm_pair (g := addEdge g ⟨p, fused, e.si, e.di⟩)
        (u := p) (v := first) (by rw [links_addEdge]; exact List.mem_append_left _ hmem)
      rw [links_addEdge] at h2
      have hp1 : (links g1).Perm (L.map (fun p => (p, first)) ++ ((p, fused) :: R)) := by
        have a : ((p, first) :: links g1).Perm ((p, first) :: (L.map (fun p => (p, first)) ++
            ((p, fused) :: R))) := by
          refine h2.symm.trans ((h.append_right _).trans ?_)
          rw [List.map_cons, List.cons_append, List.cons_append]
          refine List.Perm.cons _ ?_
          rw [List.append_assoc]
          exact List.Perm.append_left _ (List.perm_append_comm (l₁ := R) (l₂ := [(p, fused)]))
        exact a.cons_inv
      have hM : Moved g g1 fused := by
        refine ⟨fun hn => ?_, fun m hm => ?_, fun m hm => ?_, ?_, ?_⟩
        · rw [h3]; exact addEdge_nodup _ hn
        · rw [h3, mem_addEdge]; exact Or.inl hm
        · rw [h3, mem_addEdge] at hm
          rcases hm with hm | hm | hm
          · exact Or.inl hm
          · simp only at hm; subst hm; exact Or.inl (hn m (by simp))
          · exact Or.inr hm
        · rw [h4]; exact (addEdge_same _ _).1
        · rw [h5]; exact (addEdge_same _ _).2
      obtain ⟨g', a, b, c⟩ := fuseIn_loop first fused L g1 ((p, fused) :: R) hp1
        (fun q hq => hM.nodes q (hn q (by simp [hq])))
      refine ⟨g', ?_, ?_, hM.trans c⟩
      · rw [List.foldlM_cons, he]
        simp only [Option.bind_eq_bind, Option.bind_some, h1]
        exact a
      · refine b.trans ?_
        rw [List.map_cons, List.cons_append]
        exact List.perm_middle

theorem fuseOut_loop (last fused : N) : ∀ (L : List N) (g : Gr N) (R : List (N × N)),
    (links g).Perm (L.map (fun p => (last, p)) ++ R) → (∀ p ∈ L, p ∈ g.nodes) →
    ∃ g', L.foldlM (fun g s => do
        let e ← firstEdge g last s
        removeEdge (addEdge g ⟨fused, s, e.si, e.di⟩) last s) g = some g' ∧
      (links g').Perm (L.map (fun p => (fused, p)) ++ R) ∧ Moved g g' fused
  | [], g, R, h, _ => ⟨g, rfl, h, Moved.refl g fused⟩
  | p :: L, g, R, h, hn => by
      have hmem : (last, p) ∈ links g := h.mem_iff.2 (by simp)
      obtain ⟨e, he⟩ := firstEdge_some hmem
      obtain ⟨g1, h1, h2, h3, h4, h5⟩ := eraseLast_perm_pair (g := addEdge g ⟨fused, p, e.si, e.di⟩)
        (u := last) (v := p) (by rw [links_addEdge]; exact List.mem_append_left _ hmem)
      rw [links_addEdge] at h2
      have hp1 : (links g1).Perm (L.map (fun p => (last, p)) ++ ((fused, p) :: R)) := by
        have a : ((last, p) :: links g1).Perm ((last, p) :: (L.map (fun p => (last, p)) ++
            ((fused, p) :: R))) := by
          refine h2.symm.trans ((h.append_right _).trans ?_)
          rw [List.map_cons, List.cons_append, List.cons_append]
          refine List.Perm.cons _ ?_
          rw [List.append_assoc]
          exact List.Perm.append_left _ (List.perm_append_comm (l₁ := R) (l₂ := [(fused, p)]))
        exact a.cons_inv
      have hM : Moved g g1 fused := by
        refine ⟨fun hn => ?_, fun m hm => ?_, fun m hm => ?_, ?_, ?_⟩
        · rw [h3]; exact addEdge_nodup _ hn
        · rw [h3, mem_addEdge]; exact Or.inl hm
        · rw [h3, mem_addEdge] at hm
          rcases hm with hm | hm | hm
          · exact Or.inl hm
          · exact Or.inr hm
          · simp only at hm; subst hm; exact Or.inl (hn m (by simp))
        · rw [h4]; exact (addEdge_same _ _).1
        · rw [h5]; exact (addEdge_same _ _).2
      obtain ⟨g', a, b, c⟩ := fuseOut_loop last fused L g1 ((fused, p) :: R) hp1
        (fun q hq => hM.nodes q (hn q (by simp [hq])))
      refine ⟨g', ?_, ?_, hM.trans c⟩
      · rw [List.foldlM_cons, he]
        simp only [Option.bind_eq_bind, Option.bind_some, h1]
        exact a
      · refine b.trans ?_
        rw [List.map_cons, List.cons_append]
        exact List.perm_middle

theorem prevNodes_links (g : Gr N) (n : N) :
    prevNodes g n = ((links g).filter (fun p => decide (p.2 = n))).map Prod.fst := by
  simp only [prevNodes, inEdges, links, List.filter_map, List.map_map]
  rfl

theorem nextNodes_links (g : Gr N) (n : N) :
    nextNodes g n = ((links g).filter (fun p => decide (p.1 = n))).map Prod.snd := by
  simp only [nextNodes, outEdges, links, List.filter_map, List.map_map]
  rfl

theorem map_prev (l : List (N × N)) (n : N) :
    ((l.filter (fun p => decide (p.2 = n))).map Prod.fst).map (fun p => (p, n)) =
      l.filter (fun p => decide (p.2 = n)) := by
  rw [List.map_map]
  conv_rhs => rw [← List.map_id (l.filter _)]
  apply List.map_congr_left
  rintro ⟨a, b⟩ h
  have := (List.mem_filter.1 h).2
  simp at this
  simp [this]

theorem map_next (l : List (N × N)) (n : N) :
    ((l.filter (fun p => decide (p.1 = n))).map Prod.snd).map (fun p => (n, p)) =
      l.filter (fun p => decide (p.1 = n)) := by
  rw [List.map_map]
  conv_rhs => rw [← List.map_id (l.filter _)]
  apply List.map_congr_left
  rintro ⟨a, b⟩ h
  have := (List.mem_filter.1 h).2
  simp at this
  simp [this]

/-- The incoming connections of the first layer now end in the fused node. -/
theorem fuseIn_links {g : Gr N} {first fused : N} (hs : ∀ p ∈ links g, p.1 ∈ g.nodes) :
    ∃ g', fuseIn g first fused = some g' ∧ Moved g g' fused ∧
      (links g').Perm ((links g).map (fun p => if p.2 = first then (p.1, fused) else p)) := by
  have h0 := List.filter_append_perm (fun p : N × N => decide (p.2 = first)) (links g)
  obtain ⟨g', a, b, c⟩ := fuseIn_loop first fused (prevNodes g first) g
    ((links g).filter (fun p => !decide (p.2 = first)))
    (by rw [prevNodes_links, map_prev]; exact h0.symm)
    (by
      intro p hp
      rw [prevNodes_links] at hp
      obtain ⟨q, hq, rfl⟩ := List.mem_map.1 hp
      exact hs q (List.mem_filter.1 hq).1)
  refine ⟨g', a, c, b.trans ?_⟩
  refine List.Perm.trans ?_ (h0.map _)
  rw [List.map_append]
  refine List.Perm.append (List.Perm.of_eq ?_) (List.Perm.of_eq ?_)
  · rw [prevNodes_links, List.map_map]
    apply List.map_congr_left
    rintro ⟨x, y⟩ h
    have := (List.mem_filter.1 h).2
    simp at this
    simp [this]
  · conv_lhs => rw [← List.map_id (List.filter _ _)]
    apply List.map_congr_left
    rintro ⟨x, y⟩ h
    have := (List.mem_filter.1 h).2
    simp at this
    simp [this]

theorem fuseOut_links {g : Gr N} {last fused : N} (hs : ∀ p ∈ links g, p.1 = last → p.2 ∈ g.nodes) :
    ∃ g', fuseOut g last fused = some g' ∧ Moved g g' fused ∧
      (links g').Perm ((links g).map (fun p => if p.1 = last then (fused, p.2) else p)) := by
  have h0 := List.filter_append_perm (fun p : N × N => decide (p.1 = last)) (links g)
  obtain ⟨g', a, b, c⟩ := fuseOut_loop last fused (nextNodes g last) g
    ((links g).filter (fun p => !decide (p.1 = last)))
    (by rw [nextNodes_links, map_next]; exact h0.symm)
    (by
      intro p hp
      rw [nextNodes_links] at hp
      obtain ⟨q, hq, rfl⟩ := List.mem_map.1 hp
      exact hs q (List.mem_filter.1 hq).1 (by simpa using (List.mem_filter.1 hq).2))
  refine ⟨g', a, c, b.trans ?_⟩
  refine List.Perm.trans ?_ (h0.map _)
  rw [List.map_append]
  refine List.Perm.append (List.Perm.of_eq ?_) (List.Perm.of_eq ?_)
  · rw [nextNodes_links, List.map_map]
    apply List.map_congr_left
    rintro ⟨x, y⟩ h
    have := (List.mem_filter.1 h).2
    simp at this
    simp [this]
  · conv_lhs => rw [← List.map_id (List.filter _ _)]
    apply List.map_congr_left
    rintro ⟨x, y⟩ h
    have := (List.mem_filter.1 h).2
    simp at this
    simp [this]

/-- Removing all edges into a node. -/
theorem removeInto_loop (nx : N) : ∀ (L : List (Edge N)) (g : Gr N) (R : List (N × N)),
    (links g).Perm (L.map (fun e => (e.src, nx)) ++ R) →
    ∃ g', L.foldlM (fun g ie => removeEdge g ie.src nx) g = some g' ∧ (links g').Perm R ∧
      g'.nodes = g.nodes ∧ g'.inputs = g.inputs ∧ g'.outputs = g.outputs
  | [], g, R, h => ⟨g, rfl, h, rfl, rfl, rfl⟩
  | e :: L, g, R, h => by
      obtain ⟨g1, h1, h2, h3, h4, h5⟩ := eraseLast_perm_pair (g := g) (u := e.src) (v := nx)
        (h.mem_iff.2 (by simp))
      have hp : (links g1).Perm (L.map (fun e => (e.src, nx)) ++ R) := (h2.symm.trans h).cons_inv
      obtain ⟨g', a, b, c, d, f⟩ := removeInto_loop nx L g1 R hp
      refine ⟨g', ?_, b, c.trans h3, d.trans h4, f.trans h5⟩
      rw [List.foldlM_cons, h1]
      exact a

theorem removeInto_links (g : Gr N) (nx : N) :
    ∃ g', (inEdges g nx).foldlM (fun g ie => removeEdge g ie.src nx) g = some g' ∧
      (links g').Perm ((links g).filter (fun p => decide (p.2 ≠ nx))) ∧
      g'.nodes = g.nodes ∧ g'.inputs = g.inputs ∧ g'.outputs = g.outputs := by
  apply removeInto_loop
  have h0 := List.filter_append_perm (fun p : N × N => decide (p.2 = nx)) (links g)
  refine h0.symm.trans (List.Perm.append (List.Perm.of_eq ?_) (List.Perm.of_eq ?_))
  · simp only [links, inEdges, List.filter_map]
    apply List.map_congr_left
    intro e he
    have := (List.mem_filter.1 he).2
    simp at this
    simp [this]
  · congr 1
    funext p
    simp

/-- The edges inside an operation and the other edges into its later layers are removed. -/
theorem fuseInner_links (all : List N) : ∀ (w : List N) (g : Gr N), w.Nodup → (∀ n ∈ w, n ∈ all) →
    (∀ i (h : i + 1 < w.length), nextNodes g (w[i]'(by omega)) = [w[i + 1]]) →
    ∃ g', w.dropLast.foldlM (fun g c => (nextNodes g c).foldlM (fun g nx =>
        if nx ∈ all then do
          let g ← removeEdge g c nx
          (inEdges g nx).foldlM (fun g ie => removeEdge g ie.src nx) g
        else none) g) g = some g' ∧
      (links g').Perm ((links g).filter (fun p => decide (p.2 ∉ w.tail))) ∧
      g'.nodes = g.nodes ∧ g'.inputs = g.inputs ∧ g'.outputs = g.outputs
  | [], g, _, _, _ => ⟨g, rfl, by simp, rfl, rfl, rfl⟩
  | [a], g, _, _, _ => ⟨g, rfl, by simp, rfl, rfl, rfl⟩
  | a :: b :: w, g, hn, hall, hnext => by
      have h0 : nextNodes g a = [b] := hnext 0 (by simp)
      have hab : (a, b) ∈ links g := by
        have : b ∈ nextNodes g a := by rw [h0]; simp
        rw [nextNodes_links] at this
        obtain ⟨⟨x, y⟩, hp, rfl⟩ := List.mem_map.1 this
        obtain ⟨h1, h2⟩ := List.mem_filter.1 hp
        simp at h2
        subst h2
        exact h1
      obtain ⟨g1, h1, h2, h3, h4, h5⟩ := eraseLast_perm_pair hab
      obtain ⟨g2, k1, k2, k3, k4, k5⟩ := removeInto_links g1 b
      have hp2 : (links g2).Perm ((links g).filter (fun p => decide (p.2 ≠ b))) := by
        refine k2.trans ?_
        have := h2.filter (fun p : N × N => decide (p.2 ≠ b))
        rw [List.filter_cons] at this
        simp only [ne_eq, not_true, decide_false, Bool.false_eq_true, if_false] at this
        exact this.symm
      have hnb : b ∉ w := by
        rw [List.nodup_cons, List.nodup_cons] at hn
        exact hn.2.1
      have hnext2 : ∀ i (h : i + 1 < (b :: w).length),
          nextNodes g2 ((b :: w)[i]'(by omega)) = [(b :: w)[i + 1]] := by
        intro i hi
        have := hnext (i + 1) (by simp at hi ⊢; omega)
        simp only [List.getElem_cons_succ] at this
        rw [nextNodes_links] at this ⊢
        have hne : (b :: w)[i + 1] ≠ b := by
          simp only [List.getElem_cons_succ]
          rintro e
          exact hnb (e ▸ List.getElem_mem _)
        have hperm := hp2.filter (fun p : N × N => decide (p.1 = (b :: w)[i]'(by omega)))
        rw [List.filter_filter] at hperm
        have hsub : (links g).filter (fun p => decide (p.1 = (b :: w)[i]'(by omega)) && decide (p.2 ≠ b)) =
            (links g).filter (fun p => decide (p.1 = (b :: w)[i]'(by omega))) := by
          apply List.filter_congr
          rintro ⟨x, y⟩ hxy
          by_cases hx : x = (b :: w)[i]'(by omega)
          · have hy : y ∈ ((links g).filter (fun p => decide (p.1 = (b :: w)[i]'(by omega)))).map Prod.snd :=
              List.mem_map.2 ⟨(x, y), List.mem_filter.2 ⟨hxy, by simp [hx]⟩, rfl⟩
            rw [this] at hy
            have hy' : y = (b :: w)[i + 1] := by simpa using hy
            have : y ≠ b := by rw [hy']; exact hne
            simp [hx, this]
          · simp [hx]
        rw [hsub] at hperm
        have := hperm.map Prod.snd
        rw [‹((links g).filter _).map Prod.snd = _›] at this
        exact List.perm_singleton.1 this
      obtain ⟨g', a1, a2, a3, a4, a5⟩ := fuseInner_links all (b :: w) g2 (List.nodup_cons.1 hn).2
        (fun n h => hall n (by simp [h])) hnext2
      refine ⟨g', ?_, ?_, a3.trans (k3.trans h3), a4.trans (k4.trans h4), a5.trans (k5.trans h5)⟩
      · rw [List.dropLast_cons_cons, List.foldlM_cons, h0]
        simp only [List.foldlM_cons, List.foldlM_nil, if_pos (hall b (by simp)), Option.bind_eq_bind, h1,
          Option.bind_some, k1, Option.pure_def]
        exact a1
      · refine a2.trans ((hp2.filter _).trans ?_)
        rw [List.filter_filter]
        refine List.Perm.of_eq (List.filter_congr ?_)
        rintro ⟨x, y⟩ _
        by_cases h1 : y = b <;> by_cases h2 : y ∈ w <;> simp [h1, h2]

/-- Changing the first output of a node, in place. -/
theorem modify_idx (h f : N × Nat → N × Nat) (n : N) : ∀ (l : List (N × Nat)), n ∈ l.map Prod.fst →
    (l.map Prod.fst).count n ≤ 1 →
    (l.map h).modify ((l.map Prod.fst).idxOf n) f = l.map (fun o => if o.1 = n then f (h o) else h o)
  | [], hn, _ => by simp at hn
  | o :: l, hn, hc => by
      by_cases ho : o.1 = n
      · have h0 : ((o :: l).map Prod.fst).idxOf n = 0 := by simp [List.idxOf_cons, ho]
        rw [h0]
        simp only [List.map_cons, List.modify_zero_cons, ho, if_true]
        rw [List.map_cons, List.count_cons, ho] at hc
        simp only [BEq.rfl, if_true] at hc
        have : n ∉ l.map Prod.fst := by
          intro hx
          have := List.count_pos_iff.2 hx
          omega
        congr 1
        apply List.map_congr_left
        intro p hp
        rw [if_neg]
        rintro rfl
        exact this (List.mem_map.2 ⟨p, hp, rfl⟩)
      · have h0 : ((o :: l).map Prod.fst).idxOf n = (l.map Prod.fst).idxOf n + 1 := by
          simp [List.idxOf_cons, ho]
        rw [h0]
        simp only [List.map_cons, List.modify_succ_cons, ho, if_false]
        congr 1
        apply modify_idx h f n l
        · rcases List.mem_cons.1 hn with e | e
          · exact absurd e.symm ho
          · exact e
        · rw [List.map_cons, List.count_cons] at hc
          omega

/-- The nodes are removed and the outputs moved to the fused node. -/
theorem fuseRemove_loop (fused : N) (outs : List (N × Nat)) : ∀ (L done : List N) (g : Gr N),
    g.outputs = outs.map (fun o => if o.1 ∈ done then (fused, o.2) else o) →
    (∀ n ∈ L, (outs.map Prod.fst).count n ≤ 1) → (∀ n ∈ L, n ∈ g.nodes) → (∀ n ∈ L, n ∉ g.inputs) →
    (∀ n ∈ L, n ≠ fused) → L.Nodup → g.nodes.Nodup → (∀ n ∈ L, n ∉ done) →
    (∀ n ∈ L, ∀ p ∈ links g, p.1 ≠ n ∧ p.2 ≠ n) →
    ∃ g', L.foldlM (fun g n =>
        if n ∈ outs.map Prod.fst then
          let i := (outs.map Prod.fst).idxOf n
          let os := g.outputs.modify i (fun o => (fused, o.2))
          removeNode { g with outputs := os } n none (some os)
        else removeNode g n none none) g = some g' ∧
      g'.outputs = outs.map (fun o => if o.1 ∈ done ++ L then (fused, o.2) else o) ∧
      g'.edges = g.edges ∧ g'.inputs = g.inputs ∧ g'.nodes.Nodup ∧
      ∀ m, m ∈ g'.nodes ↔ m ∈ g.nodes ∧ m ∉ L
  | [], done, g, ho, _, _, _, _, _, hnd, _, _ =>
      ⟨g, rfl, by simpa using ho, rfl, rfl, hnd, by simp⟩
  | n :: L, done, g, ho, hc, hn, hi, hf, hL, hnd, hd, hlk => by
      rw [List.nodup_cons] at hL
      have hin : (inEdges g n).length = 0 := by
        rw [List.length_eq_zero_iff, inEdges, List.filter_eq_nil_iff]
        intro e he
        have := hlk n (by simp) (e.src, e.dst) (List.mem_map.2 ⟨e, he, rfl⟩)
        simpa using this.2
      have hout : (outEdges g n).length = 0 := by
        rw [List.length_eq_zero_iff, outEdges, List.filter_eq_nil_iff]
        intro e he
        have := hlk n (by simp) (e.src, e.dst) (List.mem_map.2 ⟨e, he, rfl⟩)
        simpa using this.1
      have hng := hn n (by simp)
      have hni := hi n (by simp)
      have key : ∃ g1, (if n ∈ outs.map Prod.fst then
          let i := (outs.map Prod.fst).idxOf n
          let os := g.outputs.modify i (fun o => (fused, o.2))
          removeNode { g with outputs := os } n none (some os)
        else removeNode g n none none) = some g1 ∧
        g1.outputs = outs.map (fun o => if o.1 ∈ done ++ [n] then (fused, o.2) else o) ∧
        g1.edges = g.edges ∧ g1.inputs = g.inputs ∧ g1.nodes = g.nodes.erase n := by
        by_cases hno : n ∈ outs.map Prod.fst
        · rw [if_pos hno]
          simp only
          have hmod : g.outputs.modify ((outs.map Prod.fst).idxOf n) (fun o => (fused, o.2)) =
              outs.map (fun o => if o.1 ∈ done ++ [n] then (fused, o.2) else o) := by
            rw [ho, modify_idx _ _ n outs hno (hc n (by simp))]
            apply List.map_congr_left
            intro o _
            by_cases h1 : o.1 = n
            · simp only [h1, if_true, List.mem_append, List.mem_singleton, or_true]
              rw [if_neg (hd n (by simp))]
            · simp only [h1, if_false, List.mem_append, List.mem_singleton, or_false]
          rw [hmod]
          refine ⟨⟨g.nodes.erase n, g.edges, g.inputs, outs.map (fun o => if o.1 ∈ done ++ [n] then
            (fused, o.2) else o)⟩, ?_, rfl, rfl, rfl, rfl⟩
          rw [removeNode]
          simp only [Option.map_some, hni, if_false]
          have hin' : ∀ o, (inEdges ({ g with outputs := o } : Gr N) n).length = 0 := fun _ => hin
          have hout' : ∀ o, (outEdges ({ g with outputs := o } : Gr N) n).length = 0 := fun _ => hout
          split <;> simp [List.length_eq_zero_iff.1 (hin' _), List.length_eq_zero_iff.1 (hout' _), hng, hni]
        · rw [if_neg hno]
          have hng' : n ∉ g.outputs.map Prod.fst := by
            rw [ho, List.map_map]
            intro hx
            obtain ⟨o, h1, h2⟩ := List.mem_map.1 hx
            simp only [Function.comp_apply] at h2
            split at h2
            · exact hf n (by simp) h2.symm
            · exact hno (List.mem_map.2 ⟨o, h1, h2⟩)
          refine ⟨⟨g.nodes.erase n, g.edges, g.inputs, g.outputs⟩, ?_, ?_, rfl, rfl, rfl⟩
          · rw [removeNode]
            simp [hng', hni, List.length_eq_zero_iff.1 hin, List.length_eq_zero_iff.1 hout, hng]
          · simp only
            rw [ho]
            apply List.map_congr_left
            intro o h1
            have : o.1 ≠ n := by
              rintro rfl
              exact hno (List.mem_map.2 ⟨o, h1, rfl⟩)
            simp [this]
      obtain ⟨g1, b1, b2, b3, b4, b5⟩ := key
      obtain ⟨g', c1, c2, c3, c4, c5, c6⟩ := fuseRemove_loop fused outs L (done ++ [n]) g1 b2
        (fun m hm => hc m (by simp [hm]))
        (fun m hm => by
          rw [b5]
          refine (List.mem_erase_of_ne ?_).2 (hn m (by simp [hm]))
          rintro rfl; exact hL.1 hm)
        (fun m hm => by rw [b4]; exact hi m (by simp [hm]))
        (fun m hm => hf m (by simp [hm])) hL.2 (by rw [b5]; exact hnd.erase n)
        (fun m hm => by
          simp only [List.mem_append, List.mem_singleton, not_or]
          refine ⟨hd m (by simp [hm]), ?_⟩
          rintro rfl; exact hL.1 hm)
        (fun m hm p hp => hlk m (by simp [hm]) p (by simpa [links, b3] using hp))
      refine ⟨g', ?_, by simpa using c2, c3.trans b3, c4.trans b4, c5, ?_⟩
      · rw [List.foldlM_cons, b1]
        exact c1
      · intro m
        rw [c6, b5, hnd.mem_erase_iff]
        simp only [List.mem_cons, not_or]
        constructor
        · rintro ⟨⟨h1, h2⟩, h3⟩; exact ⟨h2, h1, h3⟩
        · rintro ⟨h2, h1, h3⟩; exact ⟨⟨h1, h2⟩, h3⟩

/-- What the proofs need of a graph. -/
structure Sound (g : Gr N) : Prop where
  nodes : g.nodes.Nodup
  ends : ∀ p ∈ links g, p.1 ∈ g.nodes ∧ p.2 ∈ g.nodes
  acyclic : ∃ rank : N → Nat, ∀ p ∈ links g, rank p.1 < rank p.2

/-- A layer under its new name, for one operation. -/
def into (fused : N) (w : List N) (n : N) : N := if n ∈ w then fused else n

/-- Each layer but the last has exactly one connection, to the next layer. -/
def Leads (g : Gr N) (w : List N) : Prop :=
  ∀ i (h : i + 1 < w.length), nextNodes g (w[i]'(by omega)) = [w[i + 1]]

theorem leads_of_onlyWay {g : Gr N} {w : List N} (ho : OnlyWay g w) : Leads g w :=
  fun i h => next_of_only (onlyWay_step w i h ho)

theorem mem_next_links {g : Gr N} {x y : N} : y ∈ nextNodes g x ↔ (x, y) ∈ links g := by
  rw [nextNodes_links]
  constructor
  · intro h
    obtain ⟨⟨a, b⟩, hp, rfl⟩ := List.mem_map.1 h
    obtain ⟨h1, h2⟩ := List.mem_filter.1 hp
    simp at h2
    subst h2
    exact h1
  · intro h
    exact List.mem_map.2 ⟨(x, y), List.mem_filter.2 ⟨h, by simp⟩, rfl⟩

theorem leads_mem {g : Gr N} {w : List N} (ho : Leads g w) (i : Nat) (h : i + 1 < w.length) :
    (w[i]'(by omega), w[i + 1]) ∈ links g := by
  rw [← mem_next_links, ho i h]; simp

/-- A chain climbs in rank. -/
theorem onlyWay_rank {g : Gr N} {rank : N → Nat} (hr : ∀ p ∈ links g, rank p.1 < rank p.2) {w : List N}
    (ho : Leads g w) {i j : Nat} (hij : i < j) (hj : j < w.length) :
    rank (w[i]'(by omega)) < rank w[j] := by
  induction j with
  | zero => omega
  | succ j ih =>
    have h5 := hr _ (leads_mem ho j hj)
    simp only at h5
    rcases Nat.lt_succ_iff_lt_or_eq.1 hij with h | rfl
    · exact lt_trans (ih h (by omega)) h5
    · exact h5

/-- One operation is replaced by one node. -/
theorem replaceFused_result {g : Gr N} (hg : Sound g) {fused : N} {w : List N} (hw : w ≠ [])
    (hn : w.Nodup) (hwn : ∀ n ∈ w, n ∈ g.nodes) (ho : Leads g w) (hfresh : fused ∉ g.nodes)
    (hin : ∀ n ∈ w, n ∉ g.inputs) (hout : ∀ n ∈ w, (g.outputs.map Prod.fst).count n ≤ 1) :
    ∃ g', replaceFused g fused w = some g' ∧ Sound g' ∧
      (links g').Perm (((links g).filter (fun p => decide (p.2 ∉ w.tail))).map
        (fun p => (into fused w p.1, into fused w p.2))) ∧
      (∀ m, m ∈ g'.nodes ↔ m = fused ∨ m ∈ g.nodes ∧ m ∉ w) ∧
      g'.outputs = g.outputs.map (fun o => (into fused w o.1, o.2)) ∧ g'.inputs = g.inputs := by
  obtain ⟨first, rest, rfl⟩ : ∃ a l, w = a :: l := by
    cases w with
    | nil => exact absurd rfl hw
    | cons a l => exact ⟨a, l, rfl⟩
  obtain ⟨last, hlast⟩ : ∃ z, (first :: rest).getLast? = some z := by
    rw [List.getLast?_eq_some_getLast (by simp)]; exact ⟨_, rfl⟩
  set w := first :: rest with hwdef
  have hlw : last ∈ w := List.mem_of_getLast? hlast
  have hfw : first ∈ w := by simp [hwdef]
  have hfusedw : fused ∉ w := fun h => hfresh (hwn fused h)
  obtain ⟨rank, hrank⟩ := hg.acyclic
  have hlastidx : ∃ h : w.length - 1 < w.length, w[w.length - 1] = last := by
    have hl : w.length - 1 < w.length := by simp [hwdef]
    refine ⟨hl, ?_⟩
    rw [List.getLast?_eq_getElem?, List.getElem?_eq_getElem hl] at hlast
    simpa using hlast
  -- ranks inside the operation
  have hrf : ∀ n ∈ w, rank first ≤ rank n := by
    intro n h
    obtain ⟨i, hi, rfl⟩ := List.mem_iff_getElem.1 h
    rcases Nat.eq_zero_or_pos i with rfl | hpos
    · simp [hwdef]
    · have := onlyWay_rank hrank ho hpos hi
      simp only [hwdef, List.getElem_cons_zero] at this
      exact le_of_lt this
  have hrl : ∀ n ∈ w, rank n ≤ rank last := by
    intro n h
    obtain ⟨i, hi, rfl⟩ := List.mem_iff_getElem.1 h
    obtain ⟨hl, he⟩ := hlastidx
    rcases Nat.lt_or_ge i (w.length - 1) with h1 | h1
    · have := onlyWay_rank hrank ho h1 hl
      rw [he] at this
      exact le_of_lt this
    · have : i = w.length - 1 := by omega
      subst this
      rw [he]
  -- connections that leave a layer of the operation
  have hleave : ∀ p ∈ links g, p.1 ∈ w → p.1 = last ∨ (p.2 ∈ w.tail) := by
    rintro ⟨x, y⟩ hp hx
    obtain ⟨i, hi, hxi⟩ := List.mem_iff_getElem.1 hx
    rcases Nat.lt_or_ge (i + 1) w.length with h1 | h1
    · right
      have : y ∈ nextNodes g x := by
        rw [nextNodes_links]
        exact List.mem_map.2 ⟨(x, y), List.mem_filter.2 ⟨hp, by simp⟩, rfl⟩
      simp only at hxi
      rw [← hxi, ho i h1] at this
      have hy : y = w[i + 1] := by simpa using this
      simp only [hy, hwdef, List.getElem_cons_succ, List.tail_cons]
      exact List.getElem_mem _
    · left
      obtain ⟨hl, he⟩ := hlastidx
      have : i = w.length - 1 := by omega
      subst this
      exact hxi.symm.trans he
  have hnofirst : ∀ p ∈ links g, p.2 = first → p.1 ∉ w := by
    rintro ⟨x, y⟩ hp hy hx
    have h1 := hrank _ hp
    have h2 := hrf x hx
    simp only at hy h1
    subst hy
    omega
  have hlasttail : ∀ p ∈ links g, p.1 = last → p.2 ∉ w := by
    rintro ⟨x, y⟩ hp hx hy
    have h1 := hrank _ hp
    have h2 := hrl y hy
    simp only at hx h1
    subst hx
    omega
  -- the two loops
  obtain ⟨g1, e1, M1, l1⟩ := fuseIn_links (g := g) (first := first) (fused := fused)
    (fun p hp => (hg.ends p hp).1)
  have hg1ends : ∀ p ∈ links g1, p.1 = last → p.2 ∈ g1.nodes := by
    intro p hp hl
    obtain ⟨q, hq, rfl⟩ := List.mem_map.1 (l1.mem_iff.1 hp)
    by_cases h : q.2 = first
    · rw [if_pos h] at hl
      exact absurd (by simp only at hl; rw [hl]; exact hlw) (hnofirst q hq h)
    · rw [if_neg h]
      exact M1.nodes _ (hg.ends q hq).2
  obtain ⟨g2, e2, M2, l2⟩ := fuseOut_links (g := g1) (last := last) (fused := fused) hg1ends
  have l12 : (links g2).Perm ((links g).map (fun p =>
      ((if p.1 = last then fused else p.1), (if p.2 = first then fused else p.2)))) := by
    refine l2.trans ((l1.map _).trans (List.Perm.of_eq ?_))
    rw [List.map_map]
    apply List.map_congr_left
    rintro ⟨x, y⟩ _
    by_cases h1 : y = first <;> by_cases h2 : x = last <;> simp [h1, h2]
  have hnext2 : ∀ i (h : i + 1 < w.length), nextNodes g2 (w[i]'(by omega)) = [w[i + 1]] := by
    intro i hi
    have hnx := ho i hi
    have hne : w[i]'(by omega) ≠ last := by
      obtain ⟨hl, he⟩ := hlastidx
      rw [← he]
      intro h
      have := (List.Nodup.getElem_inj_iff hn).1 h
      omega
    have hnf : w[i]'(by omega) ≠ fused := fun h => hfusedw (h ▸ List.getElem_mem _)
    have hy : w[i + 1] ≠ first := by
      intro h
      have : w[i + 1] = w[0]'(by omega) := h.trans (by simp [hwdef])
      have := (List.Nodup.getElem_inj_iff hn).1 this
      omega
    rw [nextNodes_links] at hnx ⊢
    have hperm := (l12.filter (fun p : N × N => decide (p.1 = w[i]'(by omega)))).map Prod.snd
    rw [List.filter_map, List.map_map] at hperm
    have hcong : (links g).filter ((fun p : N × N => decide (p.1 = w[i]'(by omega))) ∘ (fun p : N × N =>
        ((if p.1 = last then fused else p.1), (if p.2 = first then fused else p.2)))) =
        (links g).filter (fun p => decide (p.1 = w[i]'(by omega))) := by
      apply List.filter_congr
      rintro ⟨x, y⟩ _
      simp only [Function.comp_apply]
      by_cases hx : x = last
      · subst hx
        simp [Ne.symm hnf, Ne.symm hne]
      · simp [hx]
    rw [hcong] at hperm
    have hmap : ((links g).filter (fun p => decide (p.1 = w[i]'(by omega)))).map (Prod.snd ∘ (fun p : N × N =>
        ((if p.1 = last then fused else p.1), (if p.2 = first then fused else p.2)))) = [w[i + 1]] := by
      have : ((links g).filter (fun p => decide (p.1 = w[i]'(by omega)))).map (Prod.snd ∘ (fun p : N × N =>
        ((if p.1 = last then fused else p.1), (if p.2 = first then fused else p.2)))) =
          (((links g).filter (fun p => decide (p.1 = w[i]'(by omega)))).map Prod.snd).map
            (fun y => if y = first then fused else y) := by
        rw [List.map_map]; rfl
      rw [this, hnx]
      simp [hy]
    rw [hmap] at hperm
    exact List.perm_singleton.1 hperm
  obtain ⟨g3, e3, l3, n3, i3, o3⟩ := fuseInner_links w w g2 hn (fun n h => h) hnext2
  -- the connections after the edges are gone
  have l123 : (links g3).Perm (((links g).filter (fun p => decide (p.2 ∉ w.tail))).map
      (fun p => (into fused w p.1, into fused w p.2))) := by
    refine l3.trans ((l12.filter _).trans ?_)
    rw [List.filter_map]
    have hcong : (links g).filter ((fun p : N × N => decide (p.2 ∉ w.tail)) ∘ (fun p : N × N =>
        ((if p.1 = last then fused else p.1), (if p.2 = first then fused else p.2)))) =
        (links g).filter (fun p => decide (p.2 ∉ w.tail)) := by
      apply List.filter_congr
      rintro ⟨x, y⟩ _
      simp only [Function.comp_apply]
      by_cases hy : y = first
      · have h1 : first ∉ w.tail := by
          rw [hwdef, List.nodup_cons] at hn
          simpa [hwdef] using hn.1
        have h2 : fused ∉ w.tail := fun h => hfusedw (List.mem_of_mem_tail h)
        simp [hy, h1, h2]
      · simp [hy]
    rw [hcong]
    refine List.Perm.of_eq (List.map_congr_left ?_)
    rintro ⟨x, y⟩ hp
    obtain ⟨hp1, hp2⟩ := List.mem_filter.1 hp
    have hp2' : y ∉ w.tail := by simpa using hp2
    simp only [into, Prod.mk.injEq]
    constructor
    · by_cases hx : x ∈ w
      · rcases hleave (x, y) hp1 hx with h | h
        · simp only at h
          rw [if_pos h, if_pos hx]
        · exact absurd h hp2'
      · rw [if_neg (fun h : x = last => hx (h ▸ hlw)), if_neg hx]
    · by_cases hy : y ∈ w
      · have : y = first := by
          rcases List.mem_cons.1 hy with h | h
          · exact h
          · exact absurd (by simpa [hwdef] using h) hp2'
        rw [if_pos this, if_pos hy]
      · rw [if_neg (fun h : y = first => hy (h ▸ hfw)), if_neg hy]
  have hinto : ∀ n, into fused w n ∉ w := by
    intro n
    rw [into]
    split
    · exact hfusedw
    · assumption
  have hmem3 : ∀ p ∈ links g3, ∃ q ∈ links g, q.2 ∉ w.tail ∧ p = (into fused w q.1, into fused w q.2) := by
    intro p hp
    obtain ⟨q, hq, rfl⟩ := List.mem_map.1 (l123.mem_iff.1 hp)
    obtain ⟨h1, h2⟩ := List.mem_filter.1 hq
    exact ⟨q, h1, by simpa using h2, rfl⟩
  have M := M1.trans M2
  obtain ⟨g4, e4, o4, d4, i4, nd4, n4⟩ := fuseRemove_loop fused g.outputs w [] g3
    (by rw [o3, M.outputs]; simp) hout (by intro n h; rw [n3]; exact M.nodes n (hwn n h))
    (by rw [i3, M.inputs]; exact hin) (fun n h e => hfusedw (e ▸ h)) hn (by rw [n3]; exact M.nodup hg.nodes)
    (by simp) (by
      intro n h p hp
      obtain ⟨q, -, -, rfl⟩ := hmem3 p hp
      exact ⟨fun e : into fused w q.1 = n => hinto q.1 (e ▸ h),
        fun e : into fused w q.2 = n => hinto q.2 (e ▸ h)⟩)
  have hnodes : ∀ m, m ∈ (addNode g4 fused).nodes ↔ m = fused ∨ m ∈ g.nodes ∧ m ∉ w := by
    intro m
    rw [mem_addNode, n4, n3]
    constructor
    · rintro (⟨h1, h2⟩ | h)
      · rcases M.back m h1 with h | h
        · exact Or.inr ⟨h, h2⟩
        · exact Or.inl h
      · exact Or.inl h
    · rintro (h | ⟨h1, h2⟩)
      · exact Or.inr h
      · exact Or.inl ⟨M.nodes m h1, h2⟩
  have hsame : ∀ x : Gr N, links (addNode x fused) = links x ∧ (addNode x fused).outputs = x.outputs ∧
      (addNode x fused).inputs = x.inputs := by
    intro x; rw [addNode]; split <;> exact ⟨rfl, rfl, rfl⟩
  have hl4 : links (addNode g4 fused) = links g3 := by rw [(hsame g4).1]; simp only [links, d4]
  refine ⟨addNode g4 fused, ?_, ⟨addNode_nodup _ nd4, ?_, ?_⟩, ?_, hnodes, ?_, ?_⟩
  · rw [replaceFused, hlast]
    simp only [hwdef, List.head?_cons]
    rw [← hwdef]
    simp only [Option.bind_eq_bind, e1, Option.bind_some, e2]
    rw [show fuseInner g2 w = some g3 from e3]
    simp only [Option.bind_some]
    have : fuseRemove g3 fused w = some g4 := by
      rw [fuseRemove]
      have : g3.outputs = g.outputs := by rw [o3, M.outputs]
      simp only [this]
      exact e4
    rw [this]
    rfl
  · intro p hp
    rw [hl4] at hp
    obtain ⟨q, hq, -, rfl⟩ := hmem3 p hp
    obtain ⟨h1, h2⟩ := hg.ends q hq
    have aux : ∀ x, x ∈ g.nodes → into fused w x ∈ (addNode g4 fused).nodes := by
      intro x hx
      rw [hnodes, into]
      split
      · exact Or.inl rfl
      · rename_i h; exact Or.inr ⟨hx, h⟩
    exact ⟨aux _ h1, aux _ h2⟩
  · refine ⟨fun n => if n = fused then rank last else rank n, fun p hp => ?_⟩
    rw [hl4] at hp
    obtain ⟨⟨x, y⟩, hq, hqt, rfl⟩ := hmem3 p hp
    have h1 := hrank _ hq
    obtain ⟨hx', hy'⟩ := hg.ends _ hq
    simp only at h1 hx' hy'
    have hxf : x ≠ fused := fun h => hfresh (h ▸ hx')
    have hyf : y ≠ fused := fun h => hfresh (h ▸ hy')
    simp only [into]
    by_cases hx : x ∈ w
    · have hxl : x = last := by
        rcases hleave (x, y) hq hx with h | h
        · exact h
        · exact absurd h hqt
      have hy : y ∉ w := hlasttail (x, y) hq hxl
      simp only [hx, hy, if_true, if_false, hyf]
      rw [← hxl]; exact h1
    · by_cases hy : y ∈ w
      · have hyF : y = first := by
          rcases List.mem_cons.1 hy with h | h
          · exact h
          · exact absurd (by simpa [hwdef] using h) hqt
        simp only [hx, hy, if_true, if_false, hxf]
        exact lt_of_lt_of_le h1 (hrl y hy)
      · simp only [hx, hy, if_false, hxf, hyf]
        exact h1
  · rw [hl4]; exact l123
  · rw [(hsame g4).2.1, o4]
    apply List.map_congr_left
    rintro ⟨x, k⟩ _
    simp only [List.nil_append, into]
    split <;> rfl
  · rw [(hsame g4).2.2, i4, i3, M.inputs]

end MCT.Fusing
