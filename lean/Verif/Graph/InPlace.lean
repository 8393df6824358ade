/-
Substitutions that change layers in place, without touching the graph: when does the function of the
model stay the same?
-/
import Verif.Graph.Rewrites

namespace MCT.GraphSpec
open MCT.Graph

variable {N V : Type*} [DecidableEq N]

/-- A walk of the graph: every layer but the last feeds the next one and nothing else, and every
layer but the first is fed by the one before and nothing else. -/
def Chain (g : Gr N) : List N → Prop
  | a :: b :: rest => (∃ e, edgesFrom g a = [e] ∧ edgesInto g b = [e]) ∧ Chain g (b :: rest)
  | _ => True

end MCT.GraphSpec

namespace MCT.Graph
open MCT.GraphSpec

set_option linter.unusedSectionVars false
set_option linter.unusedVariables false

variable {N V : Type*} [DecidableEq N]

theorem args_one {E : List (Edge N)} {v : N → Nat → V} {n : N} {e : Edge N}
    (h : E.filter (fun e => decide (e.dst = n)) = [e]) : arguments E v n = [v e.src e.si] := by
  simp [arguments, incoming, h]

theorem args_congr {E : List (Edge N)} {v v' : N → Nat → V} {n : N}
    (h : ∀ e ∈ E, e.dst = n → v e.src e.si = v' e.src e.si) : arguments E v n = arguments E v' n := by
  have : incoming E v n = incoming E v' n := by
    apply List.map_congr_left
    intro e he
    obtain ⟨h1, h2⟩ := List.mem_filter.1 he
    rw [h e h1 (by simpa using h2)]
  rw [arguments, arguments, this]

/-- Layers changed in place such that the value at every node changes by a function of the node: the
model computes the same when nothing changes at its outputs. -/
theorem inplace_same {g : Gr N} (wf : WellFormed g) {I I' : Interp N V} (T : N → Nat → V → V)
    (hin : ∀ n ∈ g.inputs, ∀ k x, T n k x = x)
    (hout : ∀ o ∈ g.outputs, ∀ x, T o.1 o.2 x = x)
    (hstep : ∀ n ∈ g.nodes, n ∉ g.inputs → ∀ (v : N → Nat → V) k,
      I' n (arguments g.edges (fun m k => T m k (v m k)) n) k = T n k (I n (arguments g.edges v n) k)) :
    SameFunction g I g I' := by
  apply same_of_forward wf wf
  intro env v hv
  refine ⟨fun m k => T m k (v m k), ?_, ?_⟩
  · intro n hn k
    by_cases h : n ∈ g.inputs
    · simp only [h, if_true, hin n h]
      rw [hv n hn k]; simp [h]
    · simp only [h, if_false]
      rw [hstep n hn h v k, hv n hn k]; simp [h]
  · apply List.map_congr_left
    intro o ho
    exact (hout o ho _).symm

theorem filter_single_src {g : Gr N} {a : N} {e : Edge N} (h : edgesFrom g a = [e]) :
    e ∈ g.edges ∧ e.src = a := by
  have : e ∈ edgesFrom g a := by rw [h]; exact List.mem_singleton_self _
  obtain ⟨h1, h2⟩ := List.mem_filter.1 this
  exact ⟨h1, by simpa using h2⟩

theorem filter_single_dst {g : Gr N} {a : N} {e : Edge N} (h : edgesInto g a = [e]) :
    e ∈ g.edges ∧ e.dst = a := by
  have : e ∈ edgesInto g a := by rw [h]; exact List.mem_singleton_self _
  obtain ⟨h1, h2⟩ := List.mem_filter.1 this
  exact ⟨h1, by simpa using h2⟩

/-- Facts about a chain: what leaves it and what enters it. -/
theorem chain_facts {g : Gr N} {rank : N → Nat} (hr : ∀ e ∈ g.edges, rank e.src < rank e.dst) :
    ∀ (mids : List N) (a b : N), Chain g (a :: (mids ++ [b])) →
      (∀ e ∈ g.edges, e.src ∈ a :: mids → e.dst ∈ mids ++ [b]) ∧
      (∀ n ∈ mids ++ [b], rank a < rank n ∧ ∃ e, edgesInto g n = [e] ∧ e.src ∈ a :: mids) ∧
      (b ∉ a :: mids) := by
  intro mids
  induction mids with
  | nil =>
    intro a b h
    obtain ⟨⟨e, h1, h2⟩, -⟩ := h
    obtain ⟨he, hs⟩ := filter_single_src h1
    obtain ⟨-, hd⟩ := filter_single_dst h2
    refine ⟨?_, ?_, ?_⟩
    · intro e' he' hs'
      simp only [List.mem_singleton] at hs'
      have : e' ∈ edgesFrom g a := List.mem_filter.2 ⟨he', by simpa using hs'⟩
      rw [h1, List.mem_singleton] at this
      subst this; simp [hd]
    · intro n hn
      simp only [List.nil_append, List.mem_singleton] at hn
      subst hn
      exact ⟨by rw [← hs, ← hd]; exact hr e he, e, h2, by simp [hs]⟩
    · simp only [List.mem_singleton]
      rintro rfl
      have := hr e he
      rw [hs, hd] at this; exact absurd this (Nat.lt_irrefl _)
  | cons m ms ih =>
    intro a b h
    obtain ⟨⟨e, h1, h2⟩, h3⟩ := h
    obtain ⟨he, hs⟩ := filter_single_src h1
    obtain ⟨-, hd⟩ := filter_single_dst h2
    obtain ⟨i1, i2, i3⟩ := ih m b h3
    have ham : rank a < rank m := by rw [← hs, ← hd]; exact hr e he
    refine ⟨?_, ?_, ?_⟩
    · intro e' he' hs'
      rcases List.mem_cons.1 hs' with hs' | hs'
      · have : e' ∈ edgesFrom g a := List.mem_filter.2 ⟨he', by simpa using hs'⟩
        rw [h1, List.mem_singleton] at this
        subst this; simp [hd]
      · exact List.mem_cons_of_mem _ (i1 e' he' hs')
    · intro n hn
      rcases List.mem_cons.1 hn with rfl | hn
      · exact ⟨ham, e, h2, by simp [hs]⟩
      · obtain ⟨j1, e', j2, j3⟩ := i2 n hn
        exact ⟨by omega, e', j2, List.mem_cons_of_mem _ j3⟩
    · intro hb
      rcases List.mem_cons.1 hb with rfl | hb
      · have := (i2 b (by simp)).1; omega
      · exact i3 hb

/-- The first layer of a chain is changed by `φ`, the layers in the middle commute with `φ`, and the
last one undoes it: the model computes the same, when no layer but the last is a model output. -/
theorem chain_same {g : Gr N} (wf : WellFormed g) {I I' : Interp N V} {a b : N} {mids : List N}
    (hc : Chain g (a :: (mids ++ [b]))) (hao : ∀ n ∈ a :: mids, ¬ IsOutput g n)
    (hai : a ∉ g.inputs) (φ : V → V)
    (ha : ∀ args k, I' a args k = φ (I a args k))
    (hm : ∀ n ∈ mids, ∀ x k, I' n [φ x] k = φ (I n [x] k))
    (hb : ∀ x k, I' b [φ x] k = I b [x] k)
    (ho : ∀ n, n ∉ a :: mids → n ≠ b → I' n = I n) : SameFunction g I g I' := by
  obtain ⟨rank, hr⟩ := wf.acyclic
  obtain ⟨f1, f2, f3⟩ := chain_facts hr mids a b hc
  have hamids : a ∉ mids := by
    intro h
    have := (f2 a (List.mem_append_left _ h)).1
    omega
  have hin : ∀ n ∈ mids ++ [b], n ∉ g.inputs := by
    intro n hn hni
    obtain ⟨-, e, he, -⟩ := f2 n hn
    obtain ⟨h1, h2⟩ := filter_single_dst he
    exact wf.insFree e h1 (h2 ▸ hni)
  apply inplace_same wf (fun n _ x => if n ∈ a :: mids then φ x else x)
  · intro n hn k x
    rw [if_neg]
    intro h
    rcases List.mem_cons.1 h with rfl | h
    · exact hai hn
    · exact hin n (List.mem_append_left _ h) hn
  · intro o ho' x
    rw [if_neg]
    exact fun h => hao _ h ⟨o.2, ho'⟩
  · intro n hn hni v k
    by_cases hna : n = a
    · subst hna
      rw [args_congr (v' := v), ha]
      · simp
      · intro e he hd
        rw [if_neg]
        intro hs
        have := (f2 _ (f1 e he hs)).1
        rw [hd] at this; omega
    · by_cases hnm : n ∈ mids
      · obtain ⟨-, e, he, hs⟩ := f2 n (List.mem_append_left _ hnm)
        rw [args_one he, args_one he]
        simp only [hs, if_true, List.mem_cons_of_mem _ hnm]
        exact hm n hnm _ k
      · have hnS : n ∉ a :: mids := by simp [hna, hnm]
        simp only [hnS, if_false]
        by_cases hnb : n = b
        · subst hnb
          obtain ⟨-, e, he, hs⟩ := f2 n (by simp)
          rw [args_one he, args_one he]
          simp only [hs, if_true]
          exact hb _ k
        · rw [ho n hnS hnb, args_congr (v' := v)]
          intro e he hd
          rw [if_neg]
          intro hs
          have := f1 e he hs
          rw [hd] at this
          rcases List.mem_append.1 this with h | h
          · exact hnm h
          · exact hnb (by simpa using h)

end MCT.Graph
