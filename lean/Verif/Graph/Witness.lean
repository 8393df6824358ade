/-
Evaluation of concrete graphs, for the counterexamples and the examples beside the theorems.
-/
import Verif.Graph.Residual

namespace MCT.Graph
open MCT.GraphSpec

set_option linter.unusedVariables false

variable {V : Type*}

/-- The checks of `WellFormed` that can be evaluated, for a ranking of the nodes. -/
def wfCheck (rank : Nat → Nat) (g : Gr Nat) : Bool :=
  decide g.nodes.Nodup && decide (∀ e ∈ g.edges, e.src ∈ g.nodes) &&
  decide (∀ e ∈ g.edges, e.dst ∈ g.nodes) && decide (∀ o ∈ g.outputs, o.1 ∈ g.nodes) &&
  decide (∀ n ∈ g.inputs, n ∈ g.nodes) && decide g.inputs.Nodup &&
  decide (∀ e ∈ g.edges, e.dst ∉ g.inputs) &&
  decide (∀ n ∈ g.nodes, ((g.edges.filter (fun e => decide (e.dst = n))).map Edge.di).Nodup) &&
  decide (∀ e ∈ g.edges, rank e.src < rank e.dst)

theorem wf_of_check {rank : Nat → Nat} {g : Gr Nat} (h : wfCheck rank g = true) :
    WellFormed g := by
  simp only [wfCheck, Bool.and_eq_true, decide_eq_true_eq] at h
  obtain ⟨⟨⟨⟨⟨⟨⟨⟨h1, h2⟩, h3⟩, h4⟩, h5⟩, h6⟩, h7⟩, h8⟩, h9⟩ := h
  refine ⟨h1, h2, h3, h4, h5, h6, h7, ?_, rank, h9⟩
  intro n
  by_cases hn : n ∈ g.nodes
  · exact h8 n hn
  · have : g.edges.filter (fun e => decide (e.dst = n)) = [] := by
      rw [List.filter_eq_nil_iff]
      intro e he hd
      have hd' : e.dst = n := by simpa using hd
      exact hn (hd' ▸ h3 e he)
    rw [this]; exact List.nodup_nil

/-- The outputs of a graph whose ranks are below `f`. -/
def run (g : Gr Nat) (I : Interp Nat V) (env : Nat → V) (f : Nat) : List V :=
  g.outputs.map (fun o => evalAt g I env f o.1 o.2)

theorem run_computes {rank : Nat → Nat} {g : Gr Nat} (h : wfCheck rank g = true)
    (I : Interp Nat V) (env : Nat → V) (f : Nat) (hf : ∀ n ∈ g.nodes, rank n < f) :
    Computes g I env (run g I env f) := by
  have wf := wf_of_check h
  have hrank : ∀ e ∈ g.edges, rank e.src < rank e.dst := by
    simp only [wfCheck, Bool.and_eq_true, decide_eq_true_eq] at h
    exact h.2
  refine ⟨fun n => evalAt g I env (rank n + 1) n, valuation_ranked hrank I env, ?_⟩
  apply List.map_congr_left
  intro o ho
  rw [evalAt_stable hrank I env f (rank o.1 + 1) o.1 (hf _ (wf.outs o ho)) (Nat.lt_succ_self _)]

/-- Two graphs that give different outputs on one input are not the same function. -/
theorem not_same {rank rank' : Nat → Nat} {g g' : Gr Nat} {I I' : Interp Nat V} (env : Nat → V)
    (f : Nat) (h : wfCheck rank g = true) (h' : wfCheck rank' g' = true)
    (hf : ∀ n ∈ g.nodes, rank n < f) (hf' : ∀ n ∈ g'.nodes, rank' n < f)
    (hne : run g I env f ≠ run g' I' env f) : ¬ SameFunction g I g' I' := by
  intro hs
  exact hne (computes_unique (wf_of_check h') ((hs _ _).1 (run_computes h I env f hf))
    (run_computes h' I' env f hf'))

end MCT.Graph
