/- Removal of nodes without consumer. -/
import Verif.Torch.Lemmas

namespace MCT.Torch

set_option linter.unusedVariables false
set_option linter.unusedSectionVars false

namespace TorchSpec

/-- A path of edges from `n` to a model output that has no consumer. -/
inductive ToLastOutput (E : List GEdge) (outs : List ℕ) : ℕ → Prop
  | sink (n : ℕ) (h : n ∈ outs) (hn : ∀ e ∈ E, e.src ≠ n) : ToLastOutput E outs n
  | step (e : GEdge) (h : e ∈ E) (hd : ToLastOutput E outs e.dst) : ToLastOutput E outs e.src

end TorchSpec

open TorchSpec

/-- Invariant of the removal, with the nodes still to remove. -/
structure Inv (N0 : List ℕ) (E0 : List GEdge) (outs pend : List ℕ) (s : Rest) : Prop where
  kept : ∃ rm : ℕ → Bool, s.nodes = N0.filter (fun n => !rm n) ∧ s.edges = E0.filter (fun e => !rm e.dst)
  closed : ∀ e ∈ s.edges, e.src ∈ s.nodes
  pendNo : ∀ n ∈ pend, ∀ e ∈ s.edges, e.src ≠ n
  pendIn : ∀ n ∈ pend, n ∈ s.nodes
  nodup : pend.Nodup
  clean : ∀ n ∈ s.nodes, (∀ e ∈ s.edges, e.src ≠ n) → (n ∈ outs ∧ ∀ e ∈ E0, e.src ≠ n) ∨ n ∈ pend
  safe : ∀ n ∈ N0, ToLastOutput E0 outs n → n ∉ pend ∧ n ∈ s.nodes

variable {N0 : List ℕ} {E0 : List GEdge} {outs : List ℕ}

theorem Inv.perm {p q : List ℕ} {s : Rest} (h : Inv N0 E0 outs p s) (hp : p.Perm q) : Inv N0 E0 outs q s where
  kept := h.kept
  closed := h.closed
  pendNo := fun n hn => h.pendNo n (hp.mem_iff.mpr hn)
  pendIn := fun n hn => h.pendIn n (hp.mem_iff.mpr hn)
  nodup := hp.nodup_iff.mp h.nodup
  clean := fun n hn he => (h.clean n hn he).imp id (fun h' => hp.mem_iff.mp h')
  safe := fun n hn ht => ⟨fun h' => (h.safe n hn ht).1 (hp.mem_iff.mpr h'), (h.safe n hn ht).2⟩

theorem Inv.step (hE : ∀ e ∈ E0, e.src ∈ N0 ∧ e.dst ∈ N0) {x : ℕ} {pend : List ℕ} {s : Rest} (h : Inv N0 E0 outs (x :: pend) s) :
    Inv N0 E0 outs
      ((firsts ((s.edges.filter (fun e => decide (e.dst = x))).map (·.src))).filter
        (fun p => !(s.edges.filter (fun e => decide (e.dst ≠ x))).any (fun e => decide (e.src = p))) ++ pend)
      ⟨s.nodes.filter (fun y => decide (y ≠ x)), s.edges.filter (fun e => decide (e.dst ≠ x))⟩ := by
  obtain ⟨rm, hN, hEd⟩ := h.kept
  have hx := h.pendIn x (by simp)
  have hxno := h.pendNo x (by simp)
  have hmem : ∀ p, p ∈ (firsts ((s.edges.filter (fun e => decide (e.dst = x))).map (·.src))).filter
        (fun p => !(s.edges.filter (fun e => decide (e.dst ≠ x))).any (fun e => decide (e.src = p))) ↔
      (∃ e ∈ s.edges, e.dst = x ∧ e.src = p) ∧ ∀ e ∈ s.edges, e.dst ≠ x → e.src ≠ p := by
    intro p
    rw [List.mem_filter, mem_firsts, List.mem_map]
    simp only [List.mem_filter, decide_eq_true_eq, Bool.not_eq_true', List.any_eq_false, and_imp, and_assoc]
  have hed' : ∀ e, e ∈ s.edges.filter (fun e => decide (e.dst ≠ x)) ↔ e ∈ s.edges ∧ e.dst ≠ x := by
    intro e; rw [List.mem_filter]; simp
  have hnd' : ∀ n, n ∈ s.nodes.filter (fun y => decide (y ≠ x)) ↔ n ∈ s.nodes ∧ n ≠ x := by
    intro n; rw [List.mem_filter]; simp
  have hnod := List.nodup_cons.mp h.nodup
  have hno : ∀ n ∈ N0, ToLastOutput E0 outs n → n ≠ x ∧ n ∈ s.nodes := by
    intro n hn ht
    have := h.safe n hn ht
    exact ⟨fun hh => this.1 (by simp [hh]), this.2⟩
  constructor
  · refine ⟨fun n => rm n || decide (n = x), ?_, ?_⟩
    · simp only
      rw [hN, List.filter_filter]
      apply List.filter_congr
      intro n _
      simp [Bool.and_comm]
    · simp only
      rw [hEd, List.filter_filter]
      apply List.filter_congr
      intro n _
      simp [Bool.and_comm]
  · intro e he
    rw [hed'] at he
    exact (hnd' _).mpr ⟨h.closed e he.1, hxno e he.1⟩
  · intro n hn e he
    rw [hed'] at he
    rcases List.mem_append.mp hn with hn | hn
    · exact ((hmem n).mp hn).2 e he.1 he.2
    · exact h.pendNo n (by simp [hn]) e he.1
  · intro n hn
    rw [hnd']
    rcases List.mem_append.mp hn with hn | hn
    · obtain ⟨⟨e, he, hd, rfl⟩, _⟩ := (hmem n).mp hn
      exact ⟨h.closed e he, hxno e he⟩
    · exact ⟨h.pendIn n (by simp [hn]), fun hh => hnod.1 (hh ▸ hn)⟩
  · rw [List.nodup_append]
    refine ⟨(firsts_nodup _).filter _, hnod.2, ?_⟩
    intro a ha b hb hab
    obtain ⟨⟨e, he, hd, hs⟩, _⟩ := (hmem a).mp ha
    exact h.pendNo b (by simp [hb]) e he (by rw [hs, hab])
  · intro n hn hno'
    rw [hnd'] at hn
    by_cases hold : ∀ e ∈ s.edges, e.src ≠ n
    · rcases h.clean n hn.1 hold with hh | hh
      · exact Or.inl hh
      · rcases List.mem_cons.mp hh with rfl | hh
        · exact absurd rfl hn.2
        · exact Or.inr (by simp [hh])
    · right
      push Not at hold
      obtain ⟨e, he, hs⟩ := hold
      apply List.mem_append_left
      rw [hmem]
      refine ⟨⟨e, he, ?_, hs⟩, fun e' he' hd' => hno' e' ((hed' e').mpr ⟨he', hd'⟩)⟩
      by_contra hd
      exact hno' e ((hed' e).mpr ⟨he, hd⟩) hs
  · intro n hn ht
    obtain ⟨h1, h2⟩ := hno n hn ht
    refine ⟨fun hh => ?_, (hnd' n).mpr ⟨h2, h1⟩⟩
    rcases List.mem_append.mp hh with hh | hh
    · obtain ⟨⟨e, he, hd, hs⟩, hall⟩ := (hmem n).mp hh
      have heE : e ∈ E0 := by rw [hEd] at he; exact List.mem_of_mem_filter he
      cases ht with
      | sink _ _ hnone => exact hnone e heE hs
      | step e' he' hd' =>
        have hdn := hE e' he'
        obtain ⟨h3, h4⟩ := hno _ hdn.2 hd'
        refine hall e' ?_ h3 rfl
        rw [hEd, List.mem_filter]
        rw [hN, List.mem_filter] at h4
        exact ⟨he', h4.2⟩
    · exact (h.safe n hn ht).1 (by simp [hh])

theorem cascade_inv (hE : ∀ e ∈ E0, e.src ∈ N0 ∧ e.dst ∈ N0) (fuel : ℕ) (work rest : List ℕ) (s : Rest)
    (hf : s.nodes.length ≤ fuel) (h : Inv N0 E0 outs (work ++ rest) s) :
    Inv N0 E0 outs rest (cascade fuel work s) := by
  induction fuel generalizing work s with
  | zero =>
    have : work = [] := by
      cases work with
      | nil => rfl
      | cons x w =>
        have := h.pendIn x (by simp)
        rw [List.length_eq_zero_iff.mp (Nat.le_zero.mp hf)] at this
        simp at this
    rw [this] at h
    exact h
  | succ fuel ih =>
    cases work with
    | nil => exact h
    | cons x w =>
      simp only [cascade]
      apply ih
      · have hx := h.pendIn x (by simp)
        have : (s.nodes.filter (fun y => decide (y ≠ x))).length < s.nodes.length := by
          apply List.length_filter_lt_length_iff_exists.mpr
          exact ⟨x, hx, by simp⟩
        simp only
        omega
      · refine (Inv.step hE (x := x) (pend := w ++ rest) (by simpa using h)).perm ?_
        rw [← List.append_assoc]
        exact List.Perm.append_right _ List.perm_append_comm

/-- What `removeBroken` leaves. -/
theorem removeBroken_inv (hN : N0.Nodup) (hE : ∀ e ∈ E0, e.src ∈ N0 ∧ e.dst ∈ N0) :
    Inv N0 E0 outs [] (removeBroken outs ⟨N0, E0⟩) := by
  unfold removeBroken
  simp only
  have hmem : ∀ n, n ∈ N0.filter (fun n => !E0.any (fun e => decide (e.src = n)) && !outs.contains n) ↔
      n ∈ N0 ∧ (∀ e ∈ E0, e.src ≠ n) ∧ n ∉ outs := by
    intro n
    rw [List.mem_filter]
    simp
  have h0 : Inv N0 E0 outs (N0.filter (fun n => !E0.any (fun e => decide (e.src = n)) && !outs.contains n)) ⟨N0, E0⟩ := by
    constructor
    · exact ⟨fun _ => false, by simp, by simp⟩
    · exact fun e he => (hE e he).1
    · exact fun n hn => ((hmem n).mp hn).2.1
    · exact fun n hn => ((hmem n).mp hn).1
    · exact hN.filter _
    · intro n hn he
      by_cases ho : n ∈ outs
      · exact Or.inl ⟨ho, he⟩
      · exact Or.inr ((hmem n).mpr ⟨hn, he, ho⟩)
    · intro n hn ht
      refine ⟨fun hh => ?_, hn⟩
      have := (hmem n).mp hh
      cases ht with
      | sink _ ho _ => exact this.2.2 ho
      | step e he _ => exact this.2.1 e he rfl
  generalize hl : N0.filter (fun n => !E0.any (fun e => decide (e.src = n)) && !outs.contains n) = l at h0 ⊢
  clear hl hmem
  generalize (⟨N0, E0⟩ : Rest) = s at h0 ⊢
  induction l generalizing s with
  | nil => exact h0
  | cons n l ih =>
    rw [List.foldl_cons]
    exact ih _ (cascade_inv hE _ [n] l s (Nat.le_refl _) h0)

end MCT.Torch
