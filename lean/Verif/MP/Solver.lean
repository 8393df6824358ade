import Verif.MP.Cands
import Verif.MP.Least

set_option linter.unusedSectionVars false

/-! # A solver that satisfies the solver contract

Exhaustive search.  It is not part of the modelled code; it shows that the contract `SolverOk` the
theorems assume of the external solver can be met, and makes the examples computable. -/

namespace MCT.MP

variable {K : Type*} [Field K] [LinearOrder K] [IsStrictOrderedRing K]

/-- All the assignments of the layers. -/
def allCfgs (ncand : ℕ → ℕ) : List ℕ → List (ℕ → ℕ)
  | [] => [fun _ => 0]
  | l :: ls => (allCfgs ncand ls).flatMap fun cfg => (List.range (ncand l)).map fun c => setCfg cfg l c

theorem allCfgs_cover (ncand : ℕ → ℕ) (layers : List ℕ) (cfg : ℕ → ℕ)
    (h : ∀ l ∈ layers, cfg l < ncand l) :
    ∃ g ∈ allCfgs ncand layers, ∀ l ∈ layers, g l = cfg l := by
  induction layers with
  | nil => exact ⟨_, List.mem_singleton.mpr rfl, by simp⟩
  | cons a ls ih =>
    obtain ⟨g, hg, he⟩ := ih fun l hl => h l (List.mem_cons_of_mem _ hl)
    refine ⟨setCfg g a (cfg a), ?_, ?_⟩
    · exact List.mem_flatMap.mpr ⟨g, hg, List.mem_map.mpr ⟨cfg a, List.mem_range.mpr (h a (by simp)), rfl⟩⟩
    · intro l hl
      by_cases hla : l = a
      · rw [hla, setCfg_same]
      · rw [setCfg_ne g _ hla]
        rcases List.mem_cons.mp hl with e | e
        · exact absurd e hla
        · exact he l e

/-- Is the assignment admissible. -/
def LP.okB (p : LP K) (cfg : ℕ → ℕ) : Bool :=
  p.layers.all (fun l => decide (cfg l < p.ncand l)) &&
  p.rows.all (fun r => decide ((p.layers.map fun l => r.1 l (cfg l)).sum ≤ r.2)) &&
  p.layers.all (fun l => decide (0 ≤ p.sens l (cfg l)))

/-- Total sensitivity. -/
def LP.cost (p : LP K) (cfg : ℕ → ℕ) : K := (p.layers.map fun l => p.sens l (cfg l)).sum

/-- Exhaustive search. -/
def bruteSolve (p : LP K) : Option ((ℕ → ℕ → ℤ) × (ℕ → K)) :=
  match leastBy p.cost ((allCfgs p.ncand p.layers).filter p.okB) with
  | none => none
  | some cfg => some (fun l c => if c = cfg l then 1 else 0, fun l => p.sens l (cfg l))

theorem okB_iff (p : LP K) (cfg : ℕ → ℕ) :
    p.okB cfg = true ↔ p.CfgOk cfg ∧ ∀ l ∈ p.layers, 0 ≤ p.sens l (cfg l) := by
  unfold LP.okB LP.CfgOk
  simp only [Bool.and_eq_true, List.all_eq_true, decide_eq_true_eq]

theorem feasible_cover (p : LP K) (x : ℕ → ℕ → ℤ) (s : ℕ → K) (h : p.Feasible x s) :
    ∃ g ∈ (allCfgs p.ncand p.layers).filter p.okB, p.cost g = p.objective s := by
  obtain ⟨_, h2, h3⟩ := cfg_of_feasible p x s h
  obtain ⟨g, hg, he⟩ := allCfgs_cover p.ncand p.layers _ h2.1
  have hsum : ∀ f : ℕ → ℕ → K, (p.layers.map fun l => f l (g l)) =
      p.layers.map fun l => f l ((firstOne (x l) (p.ncand l)).getD 0) := by
    intro f; apply List.map_congr_left; intro l hl; rw [he l hl]
  refine ⟨g, List.mem_filter.mpr ⟨hg, (okB_iff p g).mpr ⟨⟨fun l hl => ?_, fun r hr => ?_⟩, fun l hl => ?_⟩⟩, ?_⟩
  · rw [he l hl]; exact h2.1 l hl
  · rw [hsum r.1]; exact h2.2 r hr
  · rw [he l hl, ← h3 l hl]; exact h.snonneg l hl
  · unfold LP.cost LP.objective
    rw [hsum p.sens]
    congr 1
    apply List.map_congr_left; intro l hl; exact (h3 l hl).symm

/-- The contract can be met. -/
theorem bruteSolve_ok : SolverOk (bruteSolve (K := K)) where
  some := by
    intro p x s h
    unfold bruteSolve at h
    rcases hl : leastBy p.cost ((allCfgs p.ncand p.layers).filter p.okB) with _ | cfg
    · rw [hl] at h; exact absurd h (by simp)
    · rw [hl] at h
      simp only [Option.some.injEq, Prod.mk.injEq] at h
      obtain ⟨rfl, rfl⟩ := h
      obtain ⟨m1, m2⟩ := leastBy_spec hl
      have hok := (okB_iff p cfg).mp (List.mem_filter.mp m1).2
      refine ⟨feasible_of_cfg p cfg hok.1 hok.2, fun x' s' hf => ?_⟩
      obtain ⟨g, hg, hc⟩ := feasible_cover p x' s' hf
      rw [← hc]; exact m2 g hg
  none := by
    intro p h x s hf
    unfold bruteSolve at h
    rcases hl : leastBy p.cost ((allCfgs p.ncand p.layers).filter p.okB) with _ | cfg
    · obtain ⟨g, hg, _⟩ := feasible_cover p x s hf
      rw [leastBy_none hl] at hg; simp at hg
    · rw [hl] at h; exact absurd h (by simp)

end MCT.MP
