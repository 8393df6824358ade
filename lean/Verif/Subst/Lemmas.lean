/-
Index arithmetic and the algebra of the batch normalisation foldings.
-/
import Verif.Subst.Model
import Mathlib.Tactic.Ring
import Mathlib.Tactic.FieldSimp
import Mathlib.Tactic.LinearCombination

namespace MCT.Subst
open MCT.SubstSpec Finset

set_option linter.unusedSectionVars false
set_option linter.unusedVariables false
set_option linter.unusedSimpArgs false

variable {K P : Type*} [Field K]

theorem md {x b r : Nat} (h : r < b) : (x * b + r) % b = r := by
  rw [Nat.mul_comm, Nat.mul_add_mod, Nat.mod_eq_of_lt h]

theorem dv {x b r : Nat} (h : r < b) : (x * b + r) / b = x := by
  rw [Nat.mul_comm, Nat.mul_add_div (by omega), Nat.div_eq_of_lt h, Nat.add_zero]

theorem _root_.MCT.SubstSpec.Conv.Valid.pos {c : Conv K} (h : c.Valid) : 0 < c.cin / c.groups ∧ 0 < c.cout / c.groups :=
  ⟨Nat.div_pos (Nat.le_of_dvd h.cin h.groupsIn) h.groups,
    Nat.div_pos (Nat.le_of_dvd h.cout h.groupsOut) h.groups⟩

/-- The folding of kernel and scale is right for this layer: all layers except PyTorch transposed
convolutions with groups of several input channels. -/
def FoldOk (c : Conv K) : Prop := c.kind = .torchTranspose → c.groups = 1 ∨ c.groups = c.cin

theorem fold_weight {c : Conv K} (hv : c.Valid) (hok : FoldOk c) (s : Nat → K) {o i t : Nat}
    (ho : o < c.cout) (hi : i < c.cin) (ht : t < c.kh * c.kw) :
    Conv.weight { c with kernel := foldKernel c s } o i t = c.weight o i t * s o := by
  obtain ⟨hA, hB⟩ := hv.pos
  rcases hk : c.kind with _ | _ | _ | _ | _
  · simp only [Conv.weight, foldKernel, hk, mulAlong, kernelShape, coord]
    split
    · simp only [List.drop, List.prod_nil, Nat.div_one, List.getD_cons_succ, List.getD_cons_zero,
        md ho]
    · simp
  · have hm : 0 < c.cout / c.cin := Nat.div_pos (Nat.le_of_dvd hv.cout (hv.depthwise hk)) hv.cin
    simp only [Conv.weight, foldKernel, hk, mulAlong, kernelShape, coord]
    split
    · rename_i h
      simp only [List.drop, List.prod_nil, List.prod_cons, Nat.mul_one, Nat.div_one,
        List.getD_cons_succ, List.getD_cons_zero, md (Nat.mod_lt o hm), dv (Nat.mod_lt o hm), md hi]
      congr 2
      conv_rhs => rw [← Nat.div_add_mod o (c.cout / c.cin)]
      rw [← h, Nat.mul_comm]
    · simp
  · simp only [Conv.weight, foldKernel, hk, mulAlong, kernelShape, coord]
    simp only [List.drop, List.prod_nil, List.prod_cons, Nat.mul_one, List.getD_cons_succ,
      List.getD_cons_zero, dv hi, md ho]
  · simp only [Conv.weight, foldKernel, hk, mulAlong, kernelShape, coord]
    split
    · simp only [List.drop, List.prod_nil, List.prod_cons, Nat.mul_one, List.getD_cons_zero]
      rw [Nat.mul_comm (c.cin / c.groups) (c.kh * c.kw), ← Nat.div_div_eq_div_mul, dv ht,
        dv (Nat.mod_lt _ hA), Nat.mod_eq_of_lt ho]
    · simp
  · by_cases h1 : c.groups > 1
    · have hg : c.groups = c.cin := (hok hk).resolve_left (by omega)
      have hA1 : c.cin / c.groups = 1 := by rw [hg]; exact Nat.div_self hv.cin
      simp only [Conv.weight, foldKernel, hk, mulAlong, coord, h1, if_true, hA1, Nat.div_one]
      split
      · rename_i h
        simp only [List.drop, List.prod_nil, List.prod_cons, Nat.mul_one, List.getD_cons_succ,
          List.getD_cons_zero, dv ht]
        congr 2
        rw [h, Nat.div_add_mod', Nat.mod_eq_of_lt ho]
      · simp
    · have hg1 : c.groups = 1 := by have := hv.groups; omega
      have h1' : ¬ (1 : Nat) > 1 := by omega
      simp only [Conv.weight, foldKernel, hk, hg1, h1', if_false]
      split
      · simp only [mulAlong, kernelShape, coord, hk, hg1, Nat.div_one, Nat.mod_eq_of_lt ho,
          List.drop, List.prod_cons, List.prod_nil, Nat.mul_one, dv ht, md ho,
          List.getD_cons_succ, List.getD_cons_zero]
      · simp

theorem orConst_eq (v : Option (Nat → K)) (d : K) (o : Nat) :
    orConst v d o = valueOr v d o := by
  cases v <;> rfl

theorem foldBN_out {c : Conv K} (hv : c.Valid) (hok : FoldOk c) (sqrt : K → K) (n : BN K)
    (src : P → Nat → Option P) (X : Nat → P → K) {o : Nat} (ho : o < c.cout) (p : P) :
    (foldBN sqrt c n).out src X o p = n.out sqrt (fun o' p' => c.out src X o' p') o p := by
  have hs : ∀ i ∈ range c.cin, ∀ t ∈ range (c.kh * c.kw),
      (foldBN sqrt c n).weight o i t * tap X i (src p t) =
        (c.weight o i t * tap X i (src p t)) * weightsScale sqrt n o := by
    intro i hi t ht
    have := fold_weight hv hok (weightsScale sqrt n) ho (mem_range.1 hi) (mem_range.1 ht)
    have h2 : (foldBN sqrt c n).weight o i t =
        Conv.weight { c with kernel := foldKernel c (weightsScale sqrt n) } o i t := rfl
    rw [h2, this]; ring
  have hsum : (∑ i ∈ range c.cin, ∑ t ∈ range (c.kh * c.kw),
      (foldBN sqrt c n).weight o i t * tap X i (src p t)) =
      (∑ i ∈ range c.cin, ∑ t ∈ range (c.kh * c.kw), c.weight o i t * tap X i (src p t)) *
        weightsScale sqrt n o := by
    rw [sum_mul]
    apply sum_congr rfl
    intro i hi
    rw [sum_mul]
    exact sum_congr rfl (hs i hi)
  rw [BN.out, Conv.out, Conv.out]
  show (∑ i ∈ range c.cin, ∑ t ∈ range (c.kh * c.kw), _) + _ = _
  rw [hsum]
  simp only [foldBN, weightsScale, orConst_eq, valueOr, Option.map_some, Option.getD_some]
  ring

/-- The forward folding is right for this layer. -/
def ForwardOk (c : Conv K) : Prop := c.kind = .torchTranspose → c.groups = 1

theorem forward_weight {c : Conv K} (hv : c.Valid) (hok : ForwardOk c) (h1 : c.kh = 1)
    (h2 : c.kw = 1) (hg : isGroupConv c = false) {scale factor k u : Nat → K}
    (hf : forwardUpdate c scale factor = some (k, u)) {o : Nat} (ho : o < c.cout) :
    (∀ i, i < c.cin → Conv.weight { c with kernel := k } o i 0 = c.weight o i 0 * scale i) ∧
    u o = ∑ i ∈ range c.cin, c.weight o i 0 * factor i := by
  rcases hk : c.kind with _ | _ | _ | _ | _
  · -- Keras convolution: not grouped
    have hg1 : c.groups = 1 := by
      have := hv.groups
      simp only [isGroupConv, hk, decide_eq_false_iff_not] at hg
      omega
    simp only [forwardUpdate, hk, Option.some.injEq, Prod.mk.injEq] at hf
    obtain ⟨rfl, rfl⟩ := hf
    have hd : ∀ i, i < c.cin → i / c.cin = o / c.cout := fun i hi => by
      rw [Nat.div_eq_of_lt hi, Nat.div_eq_of_lt ho]
    have hco : ∀ i, i < c.cin → coord (kernelShape c) 2 (i * c.cout + o) = i := by
      intro i hi
      simp only [coord, kernelShape, hk, hg1, Nat.div_one, List.drop, List.prod_cons, List.prod_nil,
        Nat.mul_one, List.getD_cons_succ, List.getD_cons_zero, dv ho, Nat.mod_eq_of_lt hi]
    constructor
    · intro i hi
      simp only [Conv.weight, hk, hg1, Nat.div_one, hd i hi, if_true, Nat.zero_mul, Nat.zero_add,
        Nat.mod_eq_of_lt hi, mulAlong, hco i hi]
    · simp only [sumOuter, hg1, Nat.div_one, mulAlong]
      apply sum_congr rfl
      intro i hi
      rw [mem_range] at hi
      simp only [Conv.weight, hk, hg1, Nat.div_one, hd i hi, if_true, Nat.zero_mul, Nat.zero_add,
        Nat.mod_eq_of_lt hi, hco i hi]
  · -- Keras depthwise
    have hm : 0 < c.cout / c.cin := Nat.div_pos (Nat.le_of_dvd hv.cout (hv.depthwise hk)) hv.cin
    simp only [forwardUpdate, hk, Option.some.injEq, Prod.mk.injEq] at hf
    obtain ⟨rfl, rfl⟩ := hf
    have hco : ∀ i r, i < c.cin → r < c.cout / c.cin →
        coord (kernelShape c) 2 (i * (c.cout / c.cin) + r) = i := by
      intro i r hi hr
      simp only [coord, kernelShape, hk, List.drop, List.prod_cons, List.prod_nil,
        Nat.mul_one, List.getD_cons_succ, List.getD_cons_zero, dv hr, Nat.mod_eq_of_lt hi]
    have hoi : o / (c.cout / c.cin) < c.cin := by
      rw [Nat.div_lt_iff_lt_mul hm, Nat.mul_div_cancel' (hv.depthwise hk)]; exact ho
    constructor
    · intro i hi
      simp only [Conv.weight, hk, Nat.zero_mul, Nat.zero_add]
      split
      · rw [mulAlong, hco i _ hi (Nat.mod_lt _ hm)]
      · simp
    · rw [sum_eq_single (o / (c.cout / c.cin))]
      · simp only [Conv.weight, hk, if_true, Nat.zero_mul, Nat.zero_add]
        have hidx : o / (c.cout / c.cin) * (c.cout / c.cin) + o % (c.cout / c.cin) = o :=
          Nat.div_add_mod' _ _
        rw [mulAlong]
        conv_lhs => rw [← hidx]
        rw [hco _ _ hoi (Nat.mod_lt _ hm)]
      · intro i _ hi
        simp only [Conv.weight, hk, hi, if_false, zero_mul]
      · intro h; exact absurd (mem_range.2 hoi) h
  · -- Keras transposed
    simp only [forwardUpdate, hk, Option.some.injEq, Prod.mk.injEq] at hf
    obtain ⟨rfl, rfl⟩ := hf
    have hco : ∀ i, i < c.cin → coord (kernelShape c) 3 (o * c.cin + i) = i := by
      intro i hi
      simp only [coord, kernelShape, hk, List.drop, List.prod_nil, Nat.div_one,
        List.getD_cons_succ, List.getD_cons_zero, md hi]
    constructor
    · intro i hi
      simp only [Conv.weight, hk, Nat.zero_mul, Nat.zero_add, mulAlong, hco i hi]
    · simp only [sumInner, mulAlong]
      apply sum_congr rfl
      intro i hi
      rw [mem_range] at hi
      simp only [Conv.weight, hk, Nat.zero_mul, Nat.zero_add, hco i hi]
  · -- PyTorch convolution: ordinary or depthwise
    have hgc : c.groups = c.cin ∨ c.groups = 1 := by
      simp only [isGroupConv, hk, decide_eq_false_iff_not, not_and_or, not_not] at hg
      exact hg
    by_cases h3 : c.groups > 1
    · have hgi : c.groups = c.cin := hgc.resolve_right (by omega)
      simp only [forwardUpdate, hk, h3, if_true] at hf
      split at hf
      · rename_i hcc
        simp only [Option.some.injEq, Prod.mk.injEq] at hf
        obtain ⟨rfl, rfl⟩ := hf
        have hA : c.cin / c.groups = 1 := by rw [hgi]; exact Nat.div_self hv.cin
        have hB : c.cout / c.groups = 1 := by rw [hgi, hcc]; exact Nat.div_self hv.cin
        have hco : coord (kernelShape c) 0 o = o := by
          simp only [coord, kernelShape, hk, hA, h1, h2, List.drop, List.prod_cons, List.prod_nil,
            Nat.mul_one, Nat.div_one, List.getD_cons_zero, Nat.mod_eq_of_lt ho]
        constructor
        · intro i hi
          simp only [Conv.weight, hk, hA, hB, Nat.div_one, Nat.mod_one, Nat.mul_one, Nat.add_zero,
            h1, h2]
          split
          · rename_i h; rw [mulAlong, hco, h]
          · simp
        · rw [sum_eq_single o]
          · simp only [Conv.weight, hk, hA, hB, Nat.div_one, Nat.mod_one, Nat.mul_one, Nat.add_zero,
              h1, h2, if_true]
            rw [mulAlong, hco]
          · intro i _ hi
            simp only [Conv.weight, hk, hA, hB, Nat.div_one, hi, if_false, zero_mul]
          · intro h; exact absurd (mem_range.2 (hcc ▸ ho)) h
      · exact absurd hf (by simp)
    · have hg1 : c.groups = 1 := by have := hv.groups; omega
      simp only [forwardUpdate, hk, h3, if_false, Option.some.injEq, Prod.mk.injEq] at hf
      obtain ⟨rfl, rfl⟩ := hf
      have hd : ∀ i, i < c.cin → i / c.cin = o / c.cout := fun i hi => by
        rw [Nat.div_eq_of_lt hi, Nat.div_eq_of_lt ho]
      have hco : ∀ i, i < c.cin → coord (kernelShape c) 1 (o * c.cin + i) = i := by
        intro i hi
        simp only [coord, kernelShape, hk, hg1, h1, h2, Nat.div_one, List.drop, List.prod_cons,
          List.prod_nil, Nat.mul_one, List.getD_cons_succ, List.getD_cons_zero, md hi]
      constructor
      · intro i hi
        simp only [Conv.weight, hk, hg1, Nat.div_one, hd i hi, if_true, h1, h2, Nat.mul_one,
          Nat.add_zero, Nat.mod_eq_of_lt hi, mulAlong, hco i hi]
      · simp only [sumInner, hg1, Nat.div_one, mulAlong]
        apply sum_congr rfl
        intro i hi
        rw [mem_range] at hi
        simp only [Conv.weight, hk, hg1, Nat.div_one, hd i hi, if_true, h1, h2, Nat.mul_one,
          Nat.add_zero, Nat.mod_eq_of_lt hi, hco i hi]
  · -- PyTorch transposed: not grouped
    have hg1 := hok hk
    have h3 : ¬ c.groups > 1 := by omega
    simp only [forwardUpdate, hk, h3, if_false, Option.some.injEq, Prod.mk.injEq] at hf
    obtain ⟨rfl, rfl⟩ := hf
    have hd : ∀ i, i < c.cin → i / c.cin = o / c.cout := fun i hi => by
      rw [Nat.div_eq_of_lt hi, Nat.div_eq_of_lt ho]
    have hco : ∀ i, i < c.cin → coord (kernelShape c) 0 (i * c.cout + o) = i := by
      intro i hi
      simp only [coord, kernelShape, hk, hg1, h1, h2, Nat.div_one, List.drop, List.prod_cons,
        List.prod_nil, Nat.mul_one, List.getD_cons_zero, dv ho, Nat.mod_eq_of_lt hi]
    constructor
    · intro i hi
      simp only [Conv.weight, hk, hg1, Nat.div_one, hd i hi, if_true, h1, h2, Nat.mul_one,
        Nat.add_zero, Nat.mod_eq_of_lt ho, mulAlong, hco i hi]
    · simp only [sumOuter, hg1, Nat.div_one, mulAlong]
      apply sum_congr rfl
      intro i hi
      rw [mem_range] at hi
      simp only [Conv.weight, hk, hg1, Nat.div_one, hd i hi, if_true, h1, h2, Nat.mul_one,
        Nat.add_zero, Nat.mod_eq_of_lt ho, hco i hi]

theorem forwardFold_out {c c' : Conv K} (hv : c.Valid) (hok : ForwardOk c) (sqrt : K → K)
    (n : BN K) (hf : forwardFoldBN sqrt n c = .ok (some c')) (src : P → Nat → Option P)
    (hsrc : ∀ p, (src p 0).isSome) (X : Nat → P → K) {o : Nat} (ho : o < c.cout) (p : P) :
    c'.out src X o p = c.out src (fun i q => n.out sqrt X i q) o p := by
  rw [forwardFoldBN] at hf
  split at hf
  · simp at hf
  rename_i hg
  split at hf
  · simp at hf
  rename_i h12
  rw [not_not] at h12
  obtain ⟨h1, h2⟩ := h12
  simp only at hf
  split at hf
  · simp at hf
  rename_i k u hu
  simp only [Except.ok.injEq, Option.some.injEq] at hf
  subst hf
  obtain ⟨hw, hu'⟩ := forward_weight hv hok h1 h2 (by simpa using hg) hu ho
  obtain ⟨q, hq⟩ := Option.isSome_iff_exists.1 (hsrc p)
  have hT : c.kh * c.kw = 1 := by rw [h1, h2]
  have hw' : ∀ i ∈ range c.cin, Conv.weight { c with
      kernel := k, bias := some (fun o => orConst c.bias 0 o + u o) } o i 0 * tap X i (some q) =
      c.weight o i 0 * weightsScale sqrt n i * X i q := by
    intro i hi
    have : Conv.weight { c with
      kernel := k, bias := some (fun o => orConst c.bias 0 o + u o) } o i 0 =
      Conv.weight { c with kernel := k } o i 0 := rfl
    rw [this, hw i (mem_range.1 hi)]; rfl
  simp only [Conv.out, hT, sum_range_one, hq]
  rw [sum_congr rfl hw']
  simp only [valueOr, Option.map_some, Option.getD_some, hu', tap, BN.out]
  rw [orConst_eq, valueOr, add_comm ((Option.map (fun f => f o) c.bias).getD 0), ← add_assoc,
    ← sum_add_distrib]
  congr 1
  apply sum_congr rfl
  intro i _
  simp only [weightsScale, orConst_eq, valueOr]
  ring

end MCT.Subst
