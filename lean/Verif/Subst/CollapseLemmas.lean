/-
Lemmas for the collapsing substitutions.
-/
import Verif.Subst.CollapseModel
import Verif.Subst.Lemmas
import Mathlib.Tactic.Linarith

namespace MCT.Subst
open MCT.SubstSpec Finset

set_option linter.unusedSectionVars false
set_option linter.unusedVariables false
set_option linter.unusedSimpArgs false

variable {K P : Type*} [Field K]

/-- The coordinates of a flat position in an array of rank 4. -/
theorem coord4 {A B C D a b c d : Nat} (ha : a < A) (hb : b < B) (hc : c < C) (hd : d < D) :
    coord [A, B, C, D] 0 (((a * B + b) * C + c) * D + d) = a ∧
    coord [A, B, C, D] 1 (((a * B + b) * C + c) * D + d) = b ∧
    coord [A, B, C, D] 2 (((a * B + b) * C + c) * D + d) = c ∧
    coord [A, B, C, D] 3 (((a * B + b) * C + c) * D + d) = d := by
  simp only [coord, List.drop, List.prod_cons, List.prod_nil, Nat.mul_one, Nat.div_one,
    List.getD_cons_succ, List.getD_cons_zero, dv hd, md hd, md hc]
  refine ⟨?_, ?_, trivial, trivial⟩
  · rw [show B * (C * D) = D * (C * B) by ring, ← Nat.div_div_eq_div_mul, dv hd,
      ← Nat.div_div_eq_div_mul, dv hc, dv hb, Nat.mod_eq_of_lt ha]
  · rw [show C * D = D * C by ring, ← Nat.div_div_eq_div_mul, dv hd, dv hc, md hb]

/-- A tap number and its row and column. -/
theorem tap_split {kh kw t : Nat} (h : t < kh * kw) : t / kw < kh ∧ t % kw < kw ∧ t / kw * kw + t % kw = t := by
  have hkw : 0 < kw := Nat.pos_of_ne_zero (by rintro rfl; simp at h)
  exact ⟨Nat.div_lt_of_lt_mul (by rwa [Nat.mul_comm]), Nat.mod_lt _ hkw, Nat.div_add_mod' t kw⟩

/-- Both convolutions on the identity read off the product of the kernels. -/
theorem runBoth_eq {c1 c2 : Conv K} (hkh : c2.kh = 1) (hkw : c2.kw = 1) (hcc : c2.cin = c1.cout)
    {n y x : Nat} (o : Nat) (hn : n < c1.cin) (hy : y < c1.kh) (hx : x < c1.kw) :
    runBoth c1 c2 (c1.kh - 1) (c1.kw - 1) n o (c1.kh - 1 - y, c1.kw - 1 - x) =
      ∑ m ∈ range c1.cout, c2.weight o m 0 * c1.weight m n (y * c1.kw + x) := by
  have ht : y * c1.kw + x < c1.kh * c1.kw := by
    calc y * c1.kw + x < y * c1.kw + c1.kw := by omega
      _ = (y + 1) * c1.kw := by ring
      _ ≤ c1.kh * c1.kw := Nat.mul_le_mul_right _ hy
  simp only [runBoth, Conv.out, hkh, hkw, valueOr, Option.map_none, Option.getD_none, add_zero,
    Nat.mul_one, sum_range_one, hcc]
  apply sum_congr rfl
  intro m hm
  have w2 : Conv.weight ({ c2 with bias := none } : Conv K) o m 0 = c2.weight o m 0 := rfl
  rw [show Conv.weight (⟨c2.kind, c1.cout, c2.cout, c2.groups, 1, 1, c2.kernel, none⟩ : Conv K) o m 0 =
    c2.weight o m 0 by rw [← w2]; simp only [hcc, hkh, hkw]]
  simp only [validSrc, tap, Nat.zero_div, Nat.zero_mod, Nat.add_zero]
  congr 1
  simp only [Conv.out, valueOr, Option.map_none, Option.getD_none, add_zero, validSrc, tap]
  rw [sum_eq_single n]
  · rw [sum_eq_single (y * c1.kw + x)]
    · rw [dv hx, md hx, eyePadded, if_pos]
      · rw [mul_one]; rfl
      · refine ⟨rfl, ?_⟩
        rw [Prod.mk.injEq]
        omega
    · intro t ht hne
      rw [eyePadded, if_neg, mul_zero]
      rintro ⟨-, h⟩
      rw [Prod.mk.injEq] at h
      obtain ⟨h1, h2, h3⟩ := tap_split (mem_range.1 ht)
      apply hne
      have e1 : t / c1.kw = y := by omega
      have e2 : t % c1.kw = x := by omega
      rw [← h3, e1, e2]
    · intro h; exact absurd (mem_range.2 ht) h
  · intro i hi hne
    apply sum_eq_zero
    intro t ht
    rw [eyePadded, if_neg (fun h => hne h.1), mul_zero]
  · intro h; exact absurd (mem_range.2 hn) h

/-- What the collapsing makes of two layers it is right for. -/
theorem collapseConv_spec {c1 c2 : Conv K} (hkh : c2.kh = 1) (hkw : c2.kw = 1) (hcc : c2.cin = c1.cout)
    (h1 : 0 < c1.kh) (h2 : 0 < c1.kw)
    (hk : c1.kind = .kerasConv ∨ (c1.kind = .torchConv ∧ c1.kh = c1.kw)) :
    ∃ d, collapseConv c1 c2 = some d ∧ d.layer.kind = c1.kind ∧ d.layer.cin = c1.cin ∧
      d.layer.cout = c2.cout ∧ d.layer.groups = 1 ∧ d.layer.kh = c1.kh ∧ d.layer.kw = c1.kw ∧
      d.layer.bias = (collapseBias c1 c2).map Prod.fst ∧
      d.biasShape = (collapseBias c1 c2).map Prod.snd ∧
      ∀ o i t, o < c2.cout → i < c1.cin → t < c1.kh * c1.kw →
        d.layer.weight o i t = ∑ m ∈ range c1.cout, c2.weight o m 0 * c1.weight m i t := by
  have hdiv : ∀ {a n : Nat}, a < n → a / n = 0 := fun h => Nat.div_eq_of_lt h
  rcases hk with hk | ⟨hk, hsq⟩
  · have e : 2 * (c1.kh + 1 - 1 - 1) + 3 - c1.kh - 1 = c1.kh := by omega
    have e' : 2 * (c1.kw + 1 - 1 - 1) + 3 - c1.kw - 1 = c1.kw := by omega
    have e2 : c1.kh + 1 - 1 - 1 = c1.kh - 1 := by omega
    have e2' : c1.kw + 1 - 1 - 1 = c1.kw - 1 := by omega
    simp only [collapseConv, eyePad, hk, hkh, hkw, e, e']
    rw [if_pos (by omega)]
    refine ⟨_, rfl, rfl, rfl, rfl, rfl, rfl, rfl, rfl, rfl, ?_⟩
    intro o i t ho hi ht
    obtain ⟨t1, t2, t3⟩ := tap_split ht
    simp only [Conv.weight, Nat.div_one, hdiv hi, hdiv ho, if_true, Nat.mod_eq_of_lt hi]
    conv_lhs => rw [← t3]
    obtain ⟨q0, q1, q2, q3⟩ := coord4 t1 t2 hi ho
    rw [q0, q1, q2, q3, e2, e2', runBoth_eq hkh hkw hcc o hi t1 t2, t3]
    rfl
  · have e : 2 * (c1.kw + 1 - 1 - 1) + 3 - c1.kh - 1 = c1.kh := by omega
    have e' : 2 * (c1.kh + 1 - 1 - 1) + 3 - c1.kw - 1 = c1.kw := by omega
    have e2 : c1.kw + 1 - 1 - 1 = c1.kh - 1 := by omega
    have e2' : c1.kh + 1 - 1 - 1 = c1.kw - 1 := by omega
    simp only [collapseConv, eyePad, hk, hkh, hkw, e, e']
    rw [if_pos (by omega)]
    refine ⟨_, rfl, rfl, rfl, rfl, rfl, rfl, rfl, rfl, rfl, ?_⟩
    intro o i t ho hi ht
    obtain ⟨t1, t2, t3⟩ := tap_split ht
    simp only [Conv.weight, Nat.div_one, hdiv hi, hdiv ho, if_true, Nat.mod_eq_of_lt hi]
    have hidx : (o * c1.cin + i) * (c1.kh * c1.kw) + t =
        ((o * c1.cin + i) * c1.kh + t / c1.kw) * c1.kw + t % c1.kw := by
      conv_lhs => rw [← t3]
      ring
    rw [hidx]
    obtain ⟨q0, q1, q2, q3⟩ := coord4 ho hi t1 t2
    rw [q0, q1, q2, q3, e2, e2', runBoth_eq hkh hkw hcc o hi t1 t2, t3]
    rfl

/-- The bias of the collapsed layer. -/
theorem collapseBias_spec {c1 c2 : Conv K} (hkh : c2.kh = 1) (hkw : c2.kw = 1) (o : Nat) :
    valueOr ((collapseBias c1 c2).map Prod.fst) 0 o =
      ∑ m ∈ range c1.cout, c2.weight o m 0 * valueOr c1.bias 0 m + valueOr c2.bias 0 o := by
  have hs : ∀ f : Nat → K, ∑ t ∈ range 1, f t = f 0 := fun f => sum_range_one f
  rcases hb1 : c1.bias with _ | b1 <;> rcases hb2 : c2.bias with _ | b2 <;>
    simp [collapseBias, hb1, hb2, valueOr, hkh, hkw, mul_comm]

/-! ### The loop -/

section Loop
variable {G M : Type*} [DecidableEq M]

theorem untried_lt {l tried : List M} {m : M} (hm : m ∈ l) (ht : m ∉ tried) :
    (l.filter (fun x => decide (x ∉ tried ++ [m]))).length <
      (l.filter (fun x => decide (x ∉ tried))).length := by
  have : l.filter (fun x => decide (x ∉ tried ++ [m])) =
      (l.filter (fun x => decide (x ∉ tried))).filter (fun x => decide (x ≠ m)) := by
    rw [List.filter_filter]
    congr 1
    funext x
    by_cases h1 : x ∈ tried <;> by_cases h2 : x = m <;> simp [h1, h2]
  rw [this]
  apply List.length_filter_lt_length_iff_exists.2
  exact ⟨m, List.mem_filter.2 ⟨hm, by simpa using ht⟩, by simp⟩

theorem loop_ends (find : G → List M) (subst : G → M → G) (size : G → Nat)
    (h : ∀ g, ∀ m ∈ find g, subst g m = g ∨ size (subst g m) < size g) :
    ∀ (n k : Nat) (g : G) (tried : List M), size g ≤ n →
      ((find g).filter (fun x => decide (x ∉ tried))).length ≤ k →
      ∃ fuel r, collapseLoop find subst fuel g tried = some r := by
  intro n
  induction n with
  | zero =>
    intro k
    induction k with
    | zero =>
      intro g tried hs hk
      refine ⟨1, (g, tried), ?_⟩
      rw [collapseLoop]
      rw [List.find?_eq_none.2]
      intro x hx
      simp only [nonpos_iff_eq_zero, List.length_eq_zero_iff, List.filter_eq_nil_iff] at hk
      exact hk x hx
    | succ k ih =>
      intro g tried hs hk
      rcases hf : (find g).find? (fun m => decide (m ∉ tried)) with _ | m
      · exact ⟨1, (g, tried), by rw [collapseLoop, hf]⟩
      · have hm := List.mem_of_find?_eq_some hf
        have ht : m ∉ tried := by simpa using List.find?_some hf
        rcases h g m hm with he | he
        · obtain ⟨fuel, r, hr⟩ := ih g (tried ++ [m]) hs (by have := untried_lt hm ht; omega)
          exact ⟨fuel + 1, r, by rw [collapseLoop, hf]; simp only [he]; exact hr⟩
        · omega
  | succ n ihn =>
    intro k
    induction k with
    | zero =>
      intro g tried hs hk
      refine ⟨1, (g, tried), ?_⟩
      rw [collapseLoop]
      rw [List.find?_eq_none.2]
      intro x hx
      simp only [nonpos_iff_eq_zero, List.length_eq_zero_iff, List.filter_eq_nil_iff] at hk
      exact hk x hx
    | succ k ih =>
      intro g tried hs hk
      rcases hf : (find g).find? (fun m => decide (m ∉ tried)) with _ | m
      · exact ⟨1, (g, tried), by rw [collapseLoop, hf]⟩
      · have hm := List.mem_of_find?_eq_some hf
        have ht : m ∉ tried := by simpa using List.find?_some hf
        rcases h g m hm with he | he
        · obtain ⟨fuel, r, hr⟩ := ih g (tried ++ [m]) hs (by have := untried_lt hm ht; omega)
          exact ⟨fuel + 1, r, by rw [collapseLoop, hf]; simp only [he]; exact hr⟩
        · obtain ⟨fuel, r, hr⟩ := ihn _ (subst g m) (tried ++ [m]) (by omega) le_rfl
          exact ⟨fuel + 1, r, by rw [collapseLoop, hf]; exact hr⟩

theorem loop_result (find : G → List M) (subst : G → M → G) (R : G → G → Prop)
    (hrefl : ∀ g, R g g) (htrans : ∀ a b c, R a b → R b c → R a c)
    (hR : ∀ g, ∀ m ∈ find g, R g (subst g m)) :
    ∀ (fuel : Nat) (g : G) (tried : List M) (r : G × List M),
      collapseLoop find subst fuel g tried = some r → R g r.1 ∧ ∀ m ∈ find r.1, m ∈ r.2 := by
  intro fuel
  induction fuel with
  | zero => intro g tried r h; simp [collapseLoop] at h
  | succ fuel ih =>
    intro g tried r h
    rw [collapseLoop] at h
    split at h
    · rename_i hf
      obtain rfl := Option.some.inj h
      refine ⟨hrefl _, ?_⟩
      intro m hm
      have := List.find?_eq_none.1 hf m hm
      simpa using this
    · rename_i m hf
      obtain ⟨h1, h2⟩ := ih _ _ _ h
      exact ⟨htrans _ _ _ (hR g m (List.mem_of_find?_eq_some hf)) h1, h2⟩

end Loop

/-! ### Residual and depthwise -/

theorem residual_weight {c : Conv K} (hv : c.Valid) (hg : c.groups = 1) (h1 : 0 < c.kh) (h2 : 0 < c.kw)
    {w : Nat → K} (h : residualKernel c = some w) {o i t : Nat} (ho : o < c.cout) (hi : i < c.cin)
    (ht : t < c.kh * c.kw) :
    Conv.weight { c with kernel := w } o i t = c.weight o i t +
      if i = o ∧ t = (c.kh - 1) / 2 * c.kw + (c.kw - 1) / 2 then 1 else 0 := by
  have hdiv : ∀ {a n : Nat}, a < n → a / n = 0 := fun h => Nat.div_eq_of_lt h
  obtain ⟨t1, t2, t3⟩ := tap_split ht
  have hw : (c.kw - 1) / 2 < c.kw := by omega
  have hteq : (t / c.kw = (c.kh - 1) / 2 ∧ t % c.kw = (c.kw - 1) / 2) ↔
      t = (c.kh - 1) / 2 * c.kw + (c.kw - 1) / 2 := by
    constructor
    · rintro ⟨e1, e2⟩; rw [← t3, e1, e2]
    · intro e; rw [e]; exact ⟨dv hw, md hw⟩
  rw [residualKernel] at h
  split at h
  swap
  · simp at h
  rcases hk : c.kind with _ | _ | _ | _ | _ <;> simp only [hk] at h
  · obtain rfl := Option.some.inj h
    simp only [Conv.weight, hk, hg, Nat.div_one, hdiv hi, hdiv ho, if_true, Nat.mod_eq_of_lt hi,
      kernelShape]
    obtain ⟨q0, q1, q2, q3⟩ := coord4 t1 t2 hi ho
    rw [t3] at q0 q1 q2 q3
    rw [q0, q1, q2, q3]
    by_cases hc : i = o ∧ t = (c.kh - 1) / 2 * c.kw + (c.kw - 1) / 2
    · rw [if_pos ⟨(hteq.2 hc.2).1, (hteq.2 hc.2).2, hc.1⟩, if_pos hc]
    · rw [if_neg (fun hh => hc ⟨hh.2.2, hteq.1 ⟨hh.1, hh.2.1⟩⟩), if_neg hc, add_zero]
  · simp at h
  · simp at h
  · obtain rfl := Option.some.inj h
    simp only [Conv.weight, hk, hg, Nat.div_one, hdiv hi, hdiv ho, if_true, Nat.mod_eq_of_lt hi,
      kernelShape]
    have hidx : (o * c.cin + i) * (c.kh * c.kw) + t =
        ((o * c.cin + i) * c.kh + t / c.kw) * c.kw + t % c.kw := by
      conv_lhs => rw [← t3]
      ring
    rw [hidx]
    obtain ⟨q0, q1, q2, q3⟩ := coord4 ho hi t1 t2
    rw [q0, q1, q2, q3]
    by_cases hc : i = o ∧ t = (c.kh - 1) / 2 * c.kw + (c.kw - 1) / 2
    · rw [if_pos ⟨(hteq.2 hc.2).1, (hteq.2 hc.2).2, hc.1.symm⟩, if_pos hc]
    · rw [if_neg (fun hh => hc ⟨hh.2.2.symm, hteq.1 ⟨hh.1, hh.2.1⟩⟩), if_neg hc, add_zero]
  · simp at h

theorem dw_weight {c c' : Conv K} (hv : c.Valid) (hk : c.kind = .kerasDepthwise)
    (h : dwToConv c = some c') (o i t : Nat) : c'.weight o i t = c.weight o i t := by
  rw [dwToConv] at h
  split at h
  · simp at h
  obtain rfl := Option.some.inj h
  have hcout : c.cin * (c.cout / c.cin) = c.cout := Nat.mul_div_cancel' (hv.depthwise hk)
  simp only [Conv.weight, hk, hcout, Nat.div_self hv.cin, Nat.div_one, Nat.mod_one, Nat.add_zero,
    Nat.mul_one]
  split
  · rename_i hi
    congr 1
    have h1 : o / (c.cout / c.cin) * (c.cout / c.cin) + o % (c.cout / c.cin) = o :=
      Nat.div_add_mod' o _
    rw [hi, Nat.add_mul, Nat.add_assoc, h1, Nat.mul_assoc, hcout]
  · rfl

end MCT.Subst
