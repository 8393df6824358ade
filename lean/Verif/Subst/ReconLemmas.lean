/-
Lemmas for second moment correction: folding with the scale 1, and the behaviour of the quantizers
under a positive scale.
-/
import Verif.Subst.ReconModel
import Verif.Subst.Lemmas
import Verif.Quant.Lemmas

namespace MCT.Subst
open MCT.SubstSpec MCT.Quant Finset

set_option linter.unusedSectionVars false
set_option linter.unusedVariables false

section
variable {K P : Type*} [Field K]

theorem foldKernel_one (c : Conv K) {s : Nat → K} (hs : ∀ o, s o = 1) : foldKernel c s = c.kernel := by
  funext j
  rw [foldKernel]
  rcases hk : c.kind with _ | _ | _ | _ | _ <;> simp only [mulAlong, hs, mul_one]
  split <;> simp only [mulAlong, hs, mul_one]

theorem foldKernel_coord {c : Conv K} (hv : c.Valid) {scale th th' : Nat → K}
    (h : refuseThreshold c scale th = some th') (s : Nat → K) (j : Nat) :
    foldKernel c s j = c.kernel j * s (coord (kernelShape c) (outAxis c.kind) j) := by
  rcases hk : c.kind with _ | _ | _ | _ | _
  · simp only [foldKernel, hk, mulAlong, outAxis]
  · simp only [refuseThreshold, hk] at h
    split at h
    · rename_i hcc
      simp only [foldKernel, hk, outAxis, hcc, Nat.div_self hv.cin, Nat.mul_one]
      congr 2
      simp only [coord, kernelShape, hk, hcc, Nat.div_self hv.cin, List.drop, List.prod_nil,
        List.prod_cons, List.getD_cons_succ, List.getD_cons_zero, Nat.mod_one, Nat.add_zero]
    · simp at h
  · simp only [foldKernel, hk, mulAlong, outAxis]
  · simp only [foldKernel, hk, mulAlong, outAxis]
  · simp only [refuseThreshold, hk] at h
    split at h
    · simp at h
    · rename_i hg
      simp only [foldKernel, hk, mulAlong, outAxis, hg, if_false]

theorem refuseThreshold_eq {c : Conv K} {scale th th' : Nat → K}
    (h : refuseThreshold c scale th = some th') (ch : Nat) : th' ch = th ch * scale ch := by
  rw [refuseThreshold] at h
  split at h <;> (try split at h) <;> simp only [Option.some.injEq, reduceCtorEq] at h <;>
    rw [← h]

end

variable {K P : Type*} [Field K] [LinearOrder K] [IsStrictOrderedRing K] [FloorRing K]

theorem fixRange_scale {s : K} (hs : 0 < s) (a b : K) (n : ℕ) :
    fixRange (a * s) (b * s) n = ((fixRange a b n).1 * s, (fixRange a b n).2 * s) := by
  have h1 : (a * s > 0) ↔ a > 0 := mul_pos_iff_of_pos_right hs
  have h2 : (b * s < 0) ↔ b < 0 := by
    constructor
    · intro h; by_contra hb; exact absurd h (not_lt.2 (mul_nonneg (not_lt.1 hb) hs.le))
    · intro h; exact mul_neg_of_neg_of_pos h hs
  have h3 : (b * s - a * s) / (2 ^ n - 1) = (b - a) / (2 ^ n - 1) * s := by ring
  have h4 : a * s / ((b - a) / (2 ^ n - 1) * s) = a / ((b - a) / (2 ^ n - 1)) :=
    mul_div_mul_right _ _ hs.ne'
  simp only [fixRange, h1, h2, h3, h4, Prod.mk.injEq]
  constructor <;> ring

theorem npClip_scale {s : K} (hs : 0 < s) (x a b : K) :
    npClip (x * s) (a * s) (b * s) = npClip x a b * s := by
  rw [npClip, npClip, ← max_mul_of_nonneg _ _ hs.le, ← min_mul_of_nonneg _ _ hs.le]

theorem uniformQuantize_scale {s : K} (hs : 0 < s) (x a b : K) (n : ℕ) :
    uniformQuantize (x * s) (a * s) (b * s) n = (uniformQuantize x a b n).map (· * s) := by
  have h0 : (a * s = b * s) ↔ a = b := mul_left_inj' hs.ne'
  simp only [uniformQuantize, h0]
  split
  · simp
  · rw [fixRange_scale hs]
    simp only [npClip_scale hs, Option.map_some, Option.some.injEq]
    set A := (fixRange a b n).1
    set B := (fixRange a b n).2
    have e1 : (B * s - A * s) / (2 ^ n - 1) = (B - A) / (2 ^ n - 1) * s := by ring
    rw [e1]
    rw [show npClip x A B * s - A * s = (npClip x A B - A) * s by ring, mul_div_mul_right _ _ hs.ne']
    ring

theorem quantizeTensor_scale {s : K} (hs : 0 < s) (x t : K) (n : ℕ) (signed : Bool) :
    quantizeTensor (x * s) (t * s) n signed = (quantizeTensor x t n signed).map (· * s) := by
  rw [quantizeTensor, quantizeTensor, ← uniformQuantize_scale hs]
  congr 1
  · ring
  · simp only [calculateDelta]; ring

end MCT.Subst
