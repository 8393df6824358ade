/-
Lemmas for the bias corrections.
-/
import Verif.Subst.CorrectionModel
import Verif.Subst.ShiftLemmas

namespace MCT.Subst
open MCT.SubstSpec Finset

set_option linter.unusedSectionVars false
set_option linter.unusedVariables false
set_option linter.unusedSimpArgs false

variable {K P : Type*} [Field K]

/-- A sum over all channels of which only those of one group count. -/
theorem group_sum_at {n A g j : Nat} (hn : n = g * A) (hA : 0 < A) (hj : j < g) (F : Nat → K) :
    (∑ i ∈ range n, if i / A = j then F i else 0) = ∑ r ∈ range A, F (j * A + r) := by
  have h := group_sum (K := K) hn hA hj (fun r => F (j * A + r))
  rw [← h]
  apply sum_congr rfl
  intro i _
  split
  · rename_i h
    rw [← h, Nat.div_add_mod' i A]
  · rfl

/-- The kernels the correction is right for. -/
def Ungrouped (c : Conv K) : Prop := c.kind = .torchTranspose → c.groups = 1

theorem errorSums_spec {c : Conv K} (hv : c.Valid) (hu : Ungrouped c) (err : Nat → K) :
    (errorSums c err).rows = c.cout ∧ 0 < (errorSums c err).cols ∧ (errorSums c err).cols ∣ c.cin ∧
      c.cin / (errorSums c err).cols ∣ c.cout ∧
      ∀ o < c.cout, ∀ mu : Nat → K,
        ∑ r ∈ range (errorSums c err).cols, (errorSums c err).at_ o r *
          mu (o / (c.cout / (c.cin / (errorSums c err).cols)) * (errorSums c err).cols + r) =
        ∑ i ∈ range c.cin, (∑ t ∈ range (c.kh * c.kw), ({ c with kernel := err } : Conv K).weight o i t) * mu i := by
  obtain ⟨hA, hB⟩ := hv.pos
  have hdd : c.cin / (c.cin / c.groups) = c.groups := Nat.div_div_self hv.groupsIn hv.cin.ne'
  have hgrp : ∀ (o : Nat) (ho : o < c.cout) (f : Nat → Nat → K) (mu : Nat → K),
      ∑ r ∈ range (c.cin / c.groups), (∑ t ∈ range (c.kh * c.kw), f r t) *
          mu (o / (c.cout / c.groups) * (c.cin / c.groups) + r) =
        ∑ i ∈ range c.cin, (∑ t ∈ range (c.kh * c.kw),
          if i / (c.cin / c.groups) = o / (c.cout / c.groups) then f (i % (c.cin / c.groups)) t else 0) * mu i := by
    intro o ho f mu
    have := group_sum_at (K := K) (group_count hv) hA (group_lt hv ho)
      (fun i => (∑ t ∈ range (c.kh * c.kw), f (i % (c.cin / c.groups)) t) * mu i)
    rw [show (∑ i ∈ range c.cin, (∑ t ∈ range (c.kh * c.kw),
          if i / (c.cin / c.groups) = o / (c.cout / c.groups) then f (i % (c.cin / c.groups)) t else 0) * mu i) =
        ∑ i ∈ range c.cin, if i / (c.cin / c.groups) = o / (c.cout / c.groups) then
          (∑ t ∈ range (c.kh * c.kw), f (i % (c.cin / c.groups)) t) * mu i else 0 from
      sum_congr rfl (fun i _ => by split <;> simp), this]
    apply sum_congr rfl
    intro r hr
    rw [md (mem_range.1 hr)]
  rcases hk : c.kind with _ | _ | _ | _ | _ <;> simp only [errorSums, hk]
  · refine ⟨trivial, hA, Nat.div_dvd_of_dvd hv.groupsIn, by rw [hdd]; exact hv.groupsOut, ?_⟩
    intro o ho mu
    simp only [Conv.weight, hk, hdd]
    exact hgrp o ho (fun r t => err ((t * (c.cin / c.groups) + r) * c.cout + o)) mu
  · have hm : 0 < c.cout / c.cin := Nat.div_pos (Nat.le_of_dvd hv.cout (hv.depthwise hk)) hv.cin
    have hcout : c.cin * (c.cout / c.cin) = c.cout := Nat.mul_div_cancel' (hv.depthwise hk)
    refine ⟨hcout, one_pos, one_dvd _, ?_, ?_⟩
    · rw [Nat.div_one]; exact hv.depthwise hk
    · intro o ho mu
      have hi : o / (c.cout / c.cin) < c.cin := by
        apply Nat.div_lt_of_lt_mul
        rw [Nat.mul_comm, hcout]; exact ho
      simp only [Conv.weight, hk, Nat.div_one, sum_range_one, Nat.mul_one, Nat.add_zero]
      symm
      rw [sum_eq_single (o / (c.cout / c.cin))]
      · congr 1
        apply sum_congr rfl
        intro t _
        simp only [if_true]
        congr 1
        have h1 : o / (c.cout / c.cin) * (c.cout / c.cin) + o % (c.cout / c.cin) = o :=
          Nat.div_add_mod' o _
        rw [Nat.add_mul, Nat.add_assoc, h1, Nat.mul_assoc]
      · intro i _ hne
        simp [hne]
      · intro hc; exact absurd (mem_range.2 hi) hc
  · have h1 := hv.ungrouped hk
    refine ⟨trivial, hv.cin, dvd_refl _, by rw [Nat.div_self hv.cin]; exact one_dvd _, ?_⟩
    intro o ho mu
    simp only [Conv.weight, hk, Nat.div_self hv.cin, Nat.div_one, Nat.div_eq_of_lt ho, Nat.zero_mul, Nat.zero_add]
  · refine ⟨trivial, hA, Nat.div_dvd_of_dvd hv.groupsIn, by rw [hdd]; exact hv.groupsOut, ?_⟩
    intro o ho mu
    simp only [Conv.weight, hk, hdd]
    exact hgrp o ho (fun r t => err ((o * (c.cin / c.groups) + r) * (c.kh * c.kw) + t)) mu
  · have h1 := hu hk
    rw [h1, Nat.div_one]
    refine ⟨rfl, hv.cin, dvd_refl _, by rw [Nat.div_self hv.cin]; exact one_dvd _, ?_⟩
    intro o ho mu
    simp only [Conv.weight, hk, h1, Nat.div_self hv.cin, Nat.div_one, Nat.div_eq_of_lt ho, Nat.zero_mul, Nat.zero_add]
    apply sum_congr rfl
    intro i hi
    rw [Nat.div_eq_of_lt (mem_range.1 hi)]
    simp [Nat.mod_eq_of_lt ho]

theorem weight_sub (c : Conv K) (a b : Nat → K) (o i t : Nat) :
    ({ c with kernel := fun j => a j - b j } : Conv K).weight o i t =
      ({ c with kernel := a } : Conv K).weight o i t - ({ c with kernel := b } : Conv K).weight o i t := by
  rcases hk : c.kind with _ | _ | _ | _ | _ <;> simp only [Conv.weight, hk] <;>
    first | rfl | (split <;> simp)

theorem correctionTerm_spec {c : Conv K} (hv : c.Valid) (hu : Ungrouped c) (qk mu : Nat → K) :
    (correctionTerm c qk mu).1 = c.cout ∧ ∀ o < c.cout, (correctionTerm c qk mu).2 o =
      ∑ i ∈ range c.cin, ∑ t ∈ range (c.kh * c.kw),
        (({ c with kernel := qk } : Conv K).weight o i t - c.weight o i t) * mu i := by
  obtain ⟨h1, h2, h3, h4, h5⟩ := errorSums_spec hv hu (fun j => qk j - c.kernel j)
  have h6 : ¬ (c.cin < (errorSums c (fun j => qk j - c.kernel j)).cols ∨
      ¬ (errorSums c (fun j => qk j - c.kernel j)).cols ∣ c.cin) := by
    rintro (h | h)
    · exact absurd (Nat.le_of_dvd hv.cin h3) (by omega)
    · exact h h3
  have h7 : ¬ ((errorSums c (fun j => qk j - c.kernel j)).rows <
        c.cin / (errorSums c (fun j => qk j - c.kernel j)).cols ∨
      ¬ c.cin / (errorSums c (fun j => qk j - c.kernel j)).cols ∣
        (errorSums c (fun j => qk j - c.kernel j)).rows) := by
    rw [h1]
    rintro (h | h)
    · exact absurd (Nat.le_of_dvd hv.cout h4) (by omega)
    · exact h h4
  simp only [correctionTerm, h6, h7, if_false]
  refine ⟨h1, ?_⟩
  intro o ho
  rw [h1, h5 o ho mu]
  apply sum_congr rfl
  intro i _
  rw [sum_mul]
  apply sum_congr rfl
  intro t _
  rw [weight_sub]

theorem outputSums_spec {c : Conv K} (hv : c.Valid) (hu : Ungrouped c) :
    (outputSums c).1 = c.cout ∧ ∀ o < c.cout, (outputSums c).2 o =
      ∑ i ∈ range c.cin, ∑ t ∈ range (c.kh * c.kw), c.weight o i t := by
  obtain ⟨h1, h2, h3, h4, h5⟩ := errorSums_spec hv hu c.kernel
  refine ⟨h1, ?_⟩
  intro o ho
  have := h5 o ho (fun _ => 1)
  simpa [outputSums] using this

theorem subtractTerm_spec {cout : Nat} {bias : Option (Nat → K)} {term : Nat × (Nat → K)} (h : term.1 = cout) :
    ∃ b, subtractTerm cout bias term = some b ∧ ∀ o, b o = valueOr bias 0 o - term.2 o := by
  cases bias with
  | none => exact ⟨fun o => -term.2 o, by simp only [subtractTerm, h, if_true], fun o => by simp [valueOr]⟩
  | some b => exact ⟨fun o => b o - term.2 o, by simp only [subtractTerm, h, if_true], fun o => by simp [valueOr]⟩

end MCT.Subst
