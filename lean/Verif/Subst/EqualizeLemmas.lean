/-
Lemmas for the scaling substitutions.
-/
import Verif.Subst.EqualizeModel
import Verif.Subst.ReconLemmas
import Mathlib.Tactic.Linarith
import Mathlib.Tactic.Positivity

namespace MCT.Subst
open MCT.SubstSpec Finset

set_option linter.unusedSectionVars false
set_option linter.unusedVariables false
set_option linter.unusedSimpArgs false

variable {K P : Type*} [Field K]

/-- The weights of a layer whose kernel is changed entry by entry. -/
theorem weight_map (c : Conv K) (f : K → K) (hf : f 0 = 0) (o i t : Nat) :
    Conv.weight { c with kernel := fun j => f (c.kernel j) } o i t = f (c.weight o i t) := by
  rcases hk : c.kind with _ | _ | _ | _ | _ <;> simp only [Conv.weight, hk] <;>
    (try split) <;> first | rfl | exact hf.symm

theorem alongAxis_some {shape : List Nat} {ax len : Nat} {f : Nat → Nat → K} {w : Nat → K}
    (h : alongAxis shape ax len f = some w) :
    shape.getD ax 1 = len ∧ w = fun j => f j (coord shape ax j) := by
  rw [alongAxis] at h
  split at h
  · exact ⟨by assumption, (Option.some.inj h).symm⟩
  · simp at h

/-- The new weights of the first layer. -/
theorem first_weight {c : Conv K} (hv : c.Valid) {s w : Nat → K}
    (h : alongAxis (kernelShape c) (outAxis c.kind) c.cout (fun j ch => c.kernel j * s ch) = some w)
    {o i t : Nat} (ho : o < c.cout) (hi : i < c.cin) (ht : t < c.kh * c.kw) :
    Conv.weight { c with kernel := w } o i t = c.weight o i t * s o := by
  obtain ⟨hl, rfl⟩ := alongAxis_some h
  have hth : (refuseThreshold c s s).isSome := by
    rcases hk : c.kind with _ | _ | _ | _ | _ <;> simp only [refuseThreshold, hk] <;> try rfl
    · simp only [kernelShape, outAxis, hk, List.getD_cons_succ, List.getD_cons_zero] at hl
      rw [if_pos hl.symm]; rfl
    · simp only [kernelShape, outAxis, hk, List.getD_cons_succ, List.getD_cons_zero] at hl
      rw [if_neg]; · rfl
      intro hg
      have := Nat.div_lt_self hv.cout hg
      omega
  obtain ⟨th', hth'⟩ := Option.isSome_iff_exists.1 hth
  have hok : FoldOk c := by
    intro hk
    simp only [kernelShape, outAxis, hk, List.getD_cons_succ, List.getD_cons_zero] at hl
    left
    by_contra hne
    have := Nat.div_lt_self hv.cout (by have := hv.groups; omega : 1 < c.groups)
    omega
  have : (fun j => c.kernel j * s (coord (kernelShape c) (outAxis c.kind) j)) = foldKernel c s := by
    funext j; exact (foldKernel_coord hv hth' s j).symm
  rw [this]
  exact fold_weight hv hok s ho hi ht

/-- The new weights of the second layer. -/
theorem second_weight {c : Conv K} (hv : c.Valid) {s w : Nat → K}
    (h : alongAxis (kernelShape c) (inAxis c.kind) c.cin (fun j ch => c.kernel j / s ch) = some w)
    {o i t : Nat} (ho : o < c.cout) (hi : i < c.cin) (ht : t < c.kh * c.kw) :
    Conv.weight { c with kernel := w } o i t = c.weight o i t / s i := by
  obtain ⟨hl, rfl⟩ := alongAxis_some h
  obtain ⟨hA, hB⟩ := hv.pos
  have hg1 : c.cin / c.groups = c.cin → c.groups = 1 := by
    intro h
    by_contra hne
    have := Nat.div_lt_self hv.cin (by have := hv.groups; omega : 1 < c.groups)
    omega
  rcases hk : c.kind with _ | _ | _ | _ | _ <;>
    simp only [kernelShape, inAxis, hk, List.getD_cons_succ, List.getD_cons_zero] at hl
  · have hg := hg1 hl
    simp only [Conv.weight, hk, hg, Nat.div_one, kernelShape, inAxis, coord]
    split
    · simp only [List.drop, List.prod_nil, List.prod_cons, Nat.mul_one, List.getD_cons_succ,
        List.getD_cons_zero, dv ho, Nat.mod_eq_of_lt hi, md hi]
    · simp
  · have hm : 0 < c.cout / c.cin := Nat.div_pos (Nat.le_of_dvd hv.cout (hv.depthwise hk)) hv.cin
    simp only [Conv.weight, hk, kernelShape, inAxis, coord]
    split
    · simp only [List.drop, List.prod_nil, List.prod_cons, Nat.mul_one, List.getD_cons_succ,
        List.getD_cons_zero, dv (Nat.mod_lt o hm), md hi]
    · simp
  · simp only [Conv.weight, hk, kernelShape, inAxis, coord, List.drop, List.prod_nil, Nat.div_one,
      List.getD_cons_succ, List.getD_cons_zero, md hi]
  · have hg := hg1 hl
    simp only [Conv.weight, hk, hg, Nat.div_one, kernelShape, inAxis, coord]
    split
    · simp only [List.drop, List.prod_nil, List.prod_cons, Nat.mul_one, List.getD_cons_succ,
        List.getD_cons_zero, dv ht, Nat.mod_eq_of_lt hi, md hi]
    · simp
  · simp only [Conv.weight, hk, kernelShape, inAxis, coord]
    split
    · simp only [List.drop, List.prod_nil, List.prod_cons, Nat.mul_one, List.getD_cons_zero]
      rw [Nat.mul_comm (c.cout / c.groups) (c.kh * c.kw), ← Nat.div_div_eq_div_mul, dv ht,
        dv (Nat.mod_lt _ hB), Nat.mod_eq_of_lt hi]
    · simp

/-- Scaled output channels. -/
theorem first_out {c c' : Conv K} (s : Nat → K) (hsame : c'.cin = c.cin ∧ c'.kh = c.kh ∧ c'.kw = c.kw)
    {o : Nat} (hw : ∀ i t, i < c.cin → t < c.kh * c.kw → c'.weight o i t = c.weight o i t * s o)
    (hb : valueOr c'.bias 0 o = valueOr c.bias 0 o * s o)
    (src : P → Nat → Option P) (X : Nat → P → K) (p : P) :
    c'.out src X o p = c.out src X o p * s o := by
  obtain ⟨h1, h2, h3⟩ := hsame
  simp only [Conv.out, h1, h2, h3, hb]
  rw [add_mul, sum_mul]
  congr 1
  apply sum_congr rfl
  intro i hi
  rw [sum_mul]
  apply sum_congr rfl
  intro t ht
  rw [hw i t (mem_range.1 hi) (mem_range.1 ht)]
  ring

/-- Scaled input channels. -/
theorem second_out {c c' : Conv K} (s : Nat → K) (hs : ∀ i, i < c.cin → s i ≠ 0)
    (hsame : c'.cin = c.cin ∧ c'.kh = c.kh ∧ c'.kw = c.kw ∧ c'.bias = c.bias) {o : Nat}
    (hw : ∀ i t, i < c.cin → t < c.kh * c.kw → c'.weight o i t = c.weight o i t / s i)
    (src : P → Nat → Option P) {X X' : Nat → P → K} (hX : ∀ i p, i < c.cin → X' i p = X i p * s i)
    (p : P) : c'.out src X' o p = c.out src X o p := by
  obtain ⟨h1, h2, h3, h4⟩ := hsame
  simp only [Conv.out, h1, h2, h3, h4]
  congr 1
  apply sum_congr rfl
  intro i hi
  apply sum_congr rfl
  intro t ht
  rw [hw i t (mem_range.1 hi) (mem_range.1 ht)]
  have h0 := hs i (mem_range.1 hi)
  cases src p t with
  | none => simp [tap]
  | some q =>
    simp only [tap, hX i q (mem_range.1 hi)]
    rw [div_mul_eq_mul_div, mul_comm (X i q), mul_div_assoc, mul_div_cancel_left₀ _ h0]

/-- What `updateLinear` makes of the two layers. -/
theorem updateLinear_spec {c1 c2 c1' c2' : Conv K} (hv1 : c1.Valid) (hv2 : c2.Valid)
    (hcc : c2.cin = c1.cout) {s : Nat → K} (h : updateLinear c1 c2 s = some (c1', c2')) :
    (c1'.cin = c1.cin ∧ c1'.kh = c1.kh ∧ c1'.kw = c1.kw) ∧
    (∀ o i t, o < c1.cout → i < c1.cin → t < c1.kh * c1.kw →
      c1'.weight o i t = c1.weight o i t * s o) ∧
    (∀ o, valueOr c1'.bias 0 o = valueOr c1.bias 0 o * s o) ∧
    (c2'.cin = c2.cin ∧ c2'.kh = c2.kh ∧ c2'.kw = c2.kw ∧ c2'.bias = c2.bias) ∧
    (∀ o i t, o < c2.cout → i < c2.cin → t < c2.kh * c2.kw →
      c2'.weight o i t = c2.weight o i t / s i) := by
  rw [updateLinear] at h
  split at h
  · rename_i w2 w1 h2 h1
    rw [← hcc] at h2
    simp only [Option.some.injEq, Prod.mk.injEq] at h
    obtain ⟨rfl, rfl⟩ := h
    refine ⟨⟨rfl, rfl, rfl⟩, ?_, ?_, ⟨rfl, rfl, rfl, rfl⟩, ?_⟩
    · intro o i t ho hi ht
      rw [← first_weight hv1 h1 ho hi ht]
      rfl
    · intro o
      cases c1.bias <;> simp [valueOr]
    · intro o i t ho hi ht
      exact second_weight hv2 h2 ho hi ht
  · simp at h

end MCT.Subst
