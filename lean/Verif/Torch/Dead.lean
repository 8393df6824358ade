/- Which nodes of a traced model remain in the graph. -/
import Verif.Torch.RoundTrip

namespace MCT.Torch

set_option linter.unusedVariables false
set_option linter.unusedSectionVars false

variable {V C F K : Type} [DecidableEq K]

open TorchSpec

theorem read_some {g : Fx V C F K} {r : Rest × List ℕ} (h : read g = some r) :
    r = (removeBroken (firsts g.outs) ⟨graphNodes g.nodes, edgesOf g.nodes⟩, firsts g.outs) ∧
      (∀ o ∈ g.outs, o ∈ graphNodes g.nodes) := by
  unfold read at h
  simp only at h
  split_ifs at h with h1 h2 h3
  simp only [Option.some.injEq] at h
  refine ⟨h.symm, ?_⟩
  intro o ho
  by_contra hh
  apply h1
  rw [List.any_eq_true]
  exact ⟨o, mem_firsts.mpr ho, by simp [hh]⟩

/-- `Leads` in terms of edges. -/
theorem leads_iff (g : Fx V C F K) (hg : ∀ o ∈ g.outs, o ∈ graphNodes g.nodes) (n : ℕ) (hn : n ∈ graphNodes g.nodes) :
    Leads g n ↔ ToLastOutput (edgesOf g.nodes) (firsts g.outs) n := by
  constructor
  · intro ho
    induction ho with
    | last o h hno =>
      refine .sink o (mem_firsts.mpr h) ?_
      rintro e he rfl
      obtain ⟨_, _, _, op, c, hop, hc, hr⟩ := mem_edgesOf g.nodes e he
      exact hno e.dst ⟨op, c, hop, hc, hr⟩
    | step i j h hj ih =>
      obtain ⟨op, c, hop, hc, hr⟩ := h
      obtain ⟨h1, h2⟩ := (mem_graphNodes _ _).mp hn
      obtain ⟨e, he, hes, hed⟩ := exists_edge g.nodes i j h1 h2 op c hop hc hr
      have := ToLastOutput.step (outs := firsts g.outs) e he (by
        rw [hed]
        apply ih
        rw [← hed]
        exact (edges_nodes g.nodes e he).2)
      rw [hes] at this
      exact this
  · intro ho
    induction ho with
    | sink o h hno =>
      refine .last o (mem_firsts.mp h) ?_
      rintro j ⟨op, c, hop, hc, hr⟩
      obtain ⟨h1, h2⟩ := (mem_graphNodes _ _).mp hn
      obtain ⟨e, he, hes, hed⟩ := exists_edge g.nodes o j h1 h2 op c hop hc hr
      exact hno e he hes
    | step e he hd ih =>
      obtain ⟨_, _, _, op, c, hop, hc, hr⟩ := mem_edgesOf g.nodes e he
      exact .step e.src e.dst ⟨op, c, hop, hc, hr⟩ (ih (edges_nodes g.nodes e he).2)

/-- **C99**: of a traced model whose nodes use only earlier nodes, the graph keeps exactly the nodes, constants
apart, from which consumers lead to a model output that itself has no consumer. -/
theorem C99_kept_iff (g : Fx V C F K) (huse : ∀ i j, Uses g i j → i < j) (s : Rest) (outs : List ℕ)
    (h : read g = some (s, outs)) (n : ℕ) :
    n ∈ s.nodes ↔ n < g.nodes.length ∧ ¬ isConst g.nodes n ∧ Leads g n := by
  obtain ⟨heq, hg⟩ := read_some h
  simp only [Prod.mk.injEq] at heq
  obtain ⟨rfl, rfl⟩ := heq
  have hinv := removeBroken_inv (N0 := graphNodes g.nodes) (E0 := edgesOf g.nodes) (outs := firsts g.outs)
    (List.nodup_range.filter _) (edges_nodes g.nodes)
  have hsub : ∀ n, n ∈ (removeBroken (firsts g.outs) ⟨graphNodes g.nodes, edgesOf g.nodes⟩).nodes →
      n ∈ graphNodes g.nodes := by
    intro n hn
    obtain ⟨rm, hN, _⟩ := hinv.kept
    rw [hN] at hn
    exact List.mem_of_mem_filter hn
  have hlead : ∀ k n, g.nodes.length - n ≤ k →
      n ∈ (removeBroken (firsts g.outs) ⟨graphNodes g.nodes, edgesOf g.nodes⟩).nodes →
      ToLastOutput (edgesOf g.nodes) (firsts g.outs) n := by
    intro k
    induction k with
    | zero =>
      intro n hk hn
      have := ((mem_graphNodes _ _).mp (hsub n hn)).1
      omega
    | succ k ih =>
      intro n hk hn
      by_cases hno : ∀ e ∈ (removeBroken (firsts g.outs) ⟨graphNodes g.nodes, edgesOf g.nodes⟩).edges, e.src ≠ n
      · rcases hinv.clean n hn hno with hh | hh
        · exact .sink n hh.1 hh.2
        · simp at hh
      · push Not at hno
        obtain ⟨e, he, hes⟩ := hno
        obtain ⟨rm, hN, hE⟩ := hinv.kept
        have he0 : e ∈ edgesOf g.nodes := by rw [hE] at he; exact List.mem_of_mem_filter he
        obtain ⟨h1, h2, _, op, c, hop, hc, hr⟩ := mem_edgesOf g.nodes e he0
        have hlt := huse e.src e.dst ⟨op, c, hop, hc, hr⟩
        have hd : e.dst ∈ (removeBroken (firsts g.outs) ⟨graphNodes g.nodes, edgesOf g.nodes⟩).nodes := by
          rw [hN, List.mem_filter]
          refine ⟨(edges_nodes g.nodes e he0).2, ?_⟩
          rw [hE, List.mem_filter] at he
          exact he.2
        have := ToLastOutput.step (outs := firsts g.outs) e he0 (ih e.dst (by omega) hd)
        rw [hes] at this
        exact this
  constructor
  · intro hn
    obtain ⟨h1, h2⟩ := (mem_graphNodes _ _).mp (hsub n hn)
    refine ⟨h1, by simp [isConst, h2], ?_⟩
    exact (leads_iff g hg n (hsub n hn)).mpr (hlead _ n (Nat.le_refl _) hn)
  · rintro ⟨h1, h2, h3⟩
    have hn : n ∈ graphNodes g.nodes := (mem_graphNodes _ _).mpr ⟨h1, not_isConst h2⟩
    exact (hinv.safe n hn ((leads_iff g hg n hn).mp h3)).2

/-- The edges of the graph are the uses between the nodes that it keeps. -/
theorem C99_edges (g : Fx V C F K) (s : Rest) (outs : List ℕ) (h : read g = some (s, outs)) (i j : ℕ) :
    (∃ e ∈ s.edges, e.src = i ∧ e.dst = j) ↔ i ∈ s.nodes ∧ j ∈ s.nodes ∧ Uses g i j := by
  obtain ⟨heq, hg⟩ := read_some h
  simp only [Prod.mk.injEq] at heq
  obtain ⟨rfl, rfl⟩ := heq
  have hinv := removeBroken_inv (N0 := graphNodes g.nodes) (E0 := edgesOf g.nodes) (outs := firsts g.outs)
    (List.nodup_range.filter _) (edges_nodes g.nodes)
  obtain ⟨rm, hN, hE⟩ := hinv.kept
  constructor
  · rintro ⟨e, he, rfl, rfl⟩
    refine ⟨hinv.closed e he, ?_⟩
    rw [hE, List.mem_filter] at he
    obtain ⟨_, _, _, op, c, hop, hc, hr⟩ := mem_edgesOf g.nodes e he.1
    rw [hN, List.mem_filter]
    exact ⟨⟨(edges_nodes g.nodes e he.1).2, he.2⟩, op, c, hop, hc, hr⟩
  · rintro ⟨hi, hj, op, c, hop, hc, hr⟩
    rw [hN, List.mem_filter] at hi hj
    obtain ⟨h1, h2⟩ := (mem_graphNodes _ _).mp hi.1
    obtain ⟨e, he, hes, hed⟩ := exists_edge g.nodes i j h1 h2 op c hop hc hr
    refine ⟨e, ?_, hes, hed⟩
    rw [hE, List.mem_filter, hed]
    exact ⟨he, hj.2⟩

end MCT.Torch
