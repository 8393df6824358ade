/-
Lemmas for the shift negative correction.
-/
import Verif.Subst.ShiftModel
import Verif.Subst.CollapseLemmas
import Verif.Search.Lemmas
import Mathlib.Algebra.BigOperators.Group.Finset.Sigma
import Mathlib.Tactic.Positivity

namespace MCT.Subst
open MCT.SubstSpec Finset

set_option linter.unusedSectionVars false
set_option linter.unusedVariables false
set_option linter.unusedSimpArgs false

variable {K P : Type*} [Field K]

/-- A sum over all channels of which only those of one group count. -/
theorem group_sum {n A g j : Nat} (hn : n = g * A) (hA : 0 < A) (hj : j < g) (f : Nat → K) :
    (∑ i ∈ range n, if i / A = j then f (i % A) else 0) = ∑ i ∈ range A, f i := by
  subst hn
  rw [← sum_filter]
  apply sum_nbij' (fun i => i % A) (fun r => j * A + r)
  · intro i hi; exact mem_range.2 (Nat.mod_lt _ hA)
  · intro r hr
    have hr := mem_range.1 hr
    refine mem_filter.2 ⟨mem_range.2 ?_, dv hr⟩
    calc j * A + r < j * A + A := by omega
      _ = (j + 1) * A := by ring
      _ ≤ g * A := Nat.mul_le_mul_right _ hj
  · intro i hi
    have := (mem_filter.1 hi).2
    rw [← this]
    exact Nat.div_add_mod' i A
  · intro r hr; exact md (mem_range.1 hr)
  · intro i hi; rfl

theorem group_count {c : Conv K} (hv : c.Valid) : c.cin = c.groups * (c.cin / c.groups) :=
  (Nat.mul_div_cancel' hv.groupsIn).symm

theorem group_lt {c : Conv K} (hv : c.Valid) {o : Nat} (ho : o < c.cout) :
    o / (c.cout / c.groups) < c.groups := by
  apply Nat.div_lt_of_lt_mul
  rw [Nat.div_mul_cancel hv.groupsOut]
  exact ho

/-- The sums over the kernel are the sums of the weights of an output channel. -/
theorem kernelSums_eq {c : Conv K} (hv : c.Valid) {s : Nat → K} (h : kernelSums c = some s) {o : Nat}
    (ho : o < c.cout) : s o = ∑ i ∈ range c.cin, ∑ t ∈ range (c.kh * c.kw), c.weight o i t := by
  obtain ⟨hA, hB⟩ := hv.pos
  rcases hk : c.kind with _ | _ | _ | _ | _ <;> simp only [kernelSums, hk] at h
  · obtain rfl := Option.some.inj h
    simp only [Conv.weight, hk]
    conv_rhs => rw [sum_comm]
    apply sum_congr rfl
    intro t _
    exact (group_sum (group_count hv) hA (group_lt hv ho)
      (fun r => c.kernel ((t * (c.cin / c.groups) + r) * c.cout + o))).symm
  · obtain rfl := Option.some.inj h
    have hm : 0 < c.cout / c.cin := Nat.div_pos (Nat.le_of_dvd hv.cout (hv.depthwise hk)) hv.cin
    have hcout : c.cin * (c.cout / c.cin) = c.cout := Nat.mul_div_cancel' (hv.depthwise hk)
    simp only [Conv.weight, hk]
    rw [sum_comm]
    apply sum_congr rfl
    intro t _
    rw [sum_ite_eq' (range c.cin) (o / (c.cout / c.cin)), if_pos]
    · congr 1
      have h1 : o / (c.cout / c.cin) * (c.cout / c.cin) + o % (c.cout / c.cin) = o :=
        Nat.div_add_mod' o _
      rw [Nat.add_mul, Nat.add_assoc, h1, Nat.mul_assoc]
    · apply mem_range.2
      apply Nat.div_lt_of_lt_mul
      rw [Nat.mul_comm, hcout]; exact ho
  · simp at h
  · obtain rfl := Option.some.inj h
    simp only [Conv.weight, hk]
    have : ∀ i, (∑ t ∈ range (c.kh * c.kw), if i / (c.cin / c.groups) = o / (c.cout / c.groups) then
        c.kernel ((o * (c.cin / c.groups) + i % (c.cin / c.groups)) * (c.kh * c.kw) + t) else 0) =
        if i / (c.cin / c.groups) = o / (c.cout / c.groups) then
          (fun r => ∑ t ∈ range (c.kh * c.kw),
            c.kernel ((o * (c.cin / c.groups) + r) * (c.kh * c.kw) + t)) (i % (c.cin / c.groups)) else 0 := by
      intro i
      split <;> simp
    simp_rw [this]
    exact (group_sum (group_count hv) hA (group_lt hv ho) _).symm
  · simp at h

/-- The corrected layer on a shifted input, given what its taps read. -/
theorem correct_out {c c' : Conv K} (hv : c.Valid) {s : K} (h : correctBias c s = some c') {o : Nat}
    (ho : o < c.cout) (src src' : P → Nat → Option P) (X Y : Nat → P → K) (p : P)
    (hY : ∀ i t, i < c.cin → t < c.kh * c.kw → tap Y i (src' p t) = tap X i (src p t) + s) :
    c'.out src' Y o p = c.out src X o p := by
  rw [correctBias] at h
  obtain ⟨sums, hs, rfl⟩ := Option.map_eq_some_iff.1 h
  have hw : ∀ i t, Conv.weight ({ c with
      bias := some (fun o => orConst c.bias 0 o - s * sums o) } : Conv K) o i t = c.weight o i t :=
    fun i t => rfl
  simp only [Conv.out, hw]
  have e1 : ∑ i ∈ range c.cin, ∑ t ∈ range (c.kh * c.kw), c.weight o i t * tap Y i (src' p t) =
      ∑ i ∈ range c.cin, ∑ t ∈ range (c.kh * c.kw), c.weight o i t * tap X i (src p t) + s * sums o := by
    rw [kernelSums_eq hv hs ho, mul_sum, ← sum_add_distrib]
    apply sum_congr rfl
    intro i hi
    rw [mul_sum, ← sum_add_distrib]
    apply sum_congr rfl
    intro t ht
    rw [hY i t (mem_range.1 hi) (mem_range.1 ht)]
    ring
  have e2 : valueOr c.bias 0 o = orConst c.bias 0 o := by
    rcases c.bias with _ | b <;> simp [valueOr, orConst]
  rw [e1, e2]
  simp only [valueOr, Option.map_some, Option.getD_some]
  ring

end MCT.Subst
