import Verif.Decomp.Tensor
import Mathlib.Data.Nat.ModEq

/-! # Index arithmetic and the operations on explicit shapes -/

namespace MCT.Decomp

variable {K : Type}

theorem valid_nil : Valid [] [] := .nil

theorem valid_cons {d a : ℕ} {s i : List ℕ} : Valid (d :: s) (a :: i) ↔ a < d ∧ Valid s i := by
  simp [Valid]

theorem Valid.length {s i : List ℕ} (h : Valid s i) : i.length = s.length := List.Forall₂.length_eq h

theorem Valid.cases_cons {d : ℕ} {s i : List ℕ} (h : Valid (d :: s) i) :
    ∃ a j, i = a :: j ∧ a < d ∧ Valid s j := by
  cases h with
  | cons h1 h2 => exact ⟨_, _, rfl, h1, h2⟩

theorem Valid.cases_nil {i : List ℕ} (h : Valid [] i) : i = [] := by
  cases h; rfl

theorem valid_append {s t i j : List ℕ} (h : i.length = s.length) :
    Valid (s ++ t) (i ++ j) ↔ Valid s i ∧ Valid t j := by
  induction s generalizing i with
  | nil =>
    have : i = [] := by simpa using h
    subst this; simp [valid_nil]
  | cons d s ih =>
    cases i with
    | nil => simp at h
    | cons a i =>
      simp only [List.cons_append, valid_cons, ih (by simpa using h), and_assoc]

theorem Valid.split {s t i : List ℕ} (h : Valid (s ++ t) i) :
    ∃ a b, i = a ++ b ∧ Valid s a ∧ Valid t b := by
  induction s generalizing i with
  | nil => exact ⟨[], i, rfl, valid_nil, h⟩
  | cons d s ih =>
    obtain ⟨a, j, rfl, h1, h2⟩ := h.cases_cons
    obtain ⟨u, v, rfl, h3, h4⟩ := ih h2
    exact ⟨a :: u, v, rfl, valid_cons.2 ⟨h1, h3⟩, h4⟩

theorem flat_lt {s i : List ℕ} (h : Valid s i) : flat s i < s.prod := by
  induction h with
  | nil => simp [flat]
  | @cons a d i s h1 h2 ih =>
    simp only [flat, List.prod_cons]
    have : (a + 1) * s.prod ≤ d * s.prod := Nat.mul_le_mul_right _ h1
    nlinarith

theorem unflat_flat {s i : List ℕ} (h : Valid s i) : unflat s (flat s i) = i := by
  induction h with
  | nil => simp [unflat]
  | @cons a d i s h1 h2 ih =>
    simp only [flat, unflat]
    have hlt := flat_lt h2
    have hpos : 0 < s.prod := by omega
    rw [Nat.add_comm, Nat.add_mul_div_right _ _ hpos, Nat.div_eq_of_lt hlt, Nat.zero_add,
      Nat.add_mul_mod_self_right, Nat.mod_eq_of_lt hlt, ih]

theorem unflat_valid {s : List ℕ} {n : ℕ} (h : n < s.prod) : Valid s (unflat s n) := by
  induction s generalizing n with
  | nil => exact valid_nil
  | cons d s ih =>
    simp only [List.prod_cons] at h
    have hpos : 0 < s.prod := by
      rcases Nat.eq_zero_or_pos s.prod with h0 | h0
      · rw [h0] at h; omega
      · exact h0
    simp only [unflat, valid_cons]
    exact ⟨by rw [Nat.div_lt_iff_lt_mul hpos]; exact h, ih (Nat.mod_lt _ hpos)⟩

theorem flat_unflat {s : List ℕ} {n : ℕ} (h : n < s.prod) : flat s (unflat s n) = n := by
  induction s generalizing n with
  | nil => simp [flat] at h ⊢; omega
  | cons d s ih =>
    simp only [List.prod_cons] at h
    have hpos : 0 < s.prod := by
      rcases Nat.eq_zero_or_pos s.prod with h0 | h0
      · rw [h0] at h; omega
      · exact h0
    simp only [unflat, flat]
    rw [ih (Nat.mod_lt _ hpos), Nat.mul_comm]
    exact Nat.div_add_mod n s.prod

theorem flat_append {s t i j : List ℕ} (h : i.length = s.length) :
    flat (s ++ t) (i ++ j) = flat s i * t.prod + flat t j := by
  induction s generalizing i with
  | nil =>
    have : i = [] := by simpa using h
    subst this; simp [flat]
  | cons d s ih =>
    cases i with
    | nil => simp at h
    | cons a i =>
      simp only [List.cons_append, flat, ih (by simpa using h), List.prod_append]
      ring

theorem sumN_congr [Field K] {n : ℕ} {f g : ℕ → K} (h : ∀ k < n, f k = g k) :
    sumN n f = sumN n g := by
  unfold sumN
  congr 1
  apply List.map_congr_left
  intro k hk
  exact h k (List.mem_range.1 hk)

theorem mapM_some {α β : Type} {l : List α} {f : α → Option β} {g : α → β}
    (h : ∀ a ∈ l, f a = some (g a)) : l.mapM f = some (l.map g) := by
  induction l with
  | nil => rfl
  | cons a l ih =>
    simp [List.mapM_cons, h a (by simp), ih fun b hb => h b (List.mem_cons_of_mem _ hb)]

/-! ### reshape -/

theorem filter_isNone_map_some (s : List ℕ) : (s.map some).filter Option.isNone = [] := by
  induction s with
  | nil => rfl
  | cons a s ih => simpa using ih

theorem filterMap_map_some (s : List ℕ) : (s.map some).filterMap id = s := by
  simp [List.filterMap_map]

theorem resolve_full {total : ℕ} {s : List ℕ} (h : s.prod = total) :
    resolve total (s.map some) = some s := by
  unfold resolve
  simp only [filter_isNone_map_some, List.length_nil, List.map_map]
  have : (s.map ((fun x : Option ℕ => x.getD 0) ∘ some)) = s := by
    conv_rhs => rw [← List.map_id s]
    rfl
  rw [this, if_pos h]

theorem resolve_auto {s : List ℕ} {b : ℕ} (h : s.prod ≠ 0) :
    resolve (b * s.prod) (none :: s.map some) = some (b :: s) := by
  unfold resolve
  have hf : List.filterMap (fun x : Option ℕ => x) (s.map some) = s := filterMap_map_some s
  simp only [List.filter_cons, Option.isNone_none, if_true, filter_isNone_map_some,
    List.length_cons, List.length_nil, List.filterMap_cons, id, hf,
    Nat.mul_mod_left, ne_eq, not_true_eq_false, or_false, h, if_false, List.map_cons,
    Option.getD_none, List.map_map]
  rw [Nat.mul_div_cancel _ (Nat.pos_of_ne_zero h)]
  have : (s.map ((fun x : Option ℕ => x.getD b) ∘ some)) = s := by
    conv_rhs => rw [← List.map_id s]
    rfl
  rw [this]

/-- A reshape reads the entry at the same row-major position. -/
theorem unflat_eq {s s' i j : List ℕ} (h : flat s i = flat s' j) (hj : Valid s' j) :
    unflat s' (flat s i) = j := by rw [h, unflat_flat hj]

/-! ### matmul -/

theorem matmul_append [Field K] {x y : Tensor K} {xs ys s : List ℕ} {m p n : ℕ}
    (hx : x.shape = xs ++ [m, p]) (hy : y.shape = ys ++ [p, n]) (hs : bshape xs ys = some s) :
    ∃ r, matmul x y = some r ∧ r.shape = s ++ [m, n] ∧
      ∀ pre i j, pre.length = s.length →
        r.get (pre ++ [i, j]) =
          sumN p fun k => x.get (bidx xs pre ++ [i, k]) * y.get (bidx ys pre ++ [k, j]) := by
  refine ⟨⟨s ++ [m, n], fun i => sumN p fun k =>
    x.get (bidx xs (i.take s.length) ++ [i.getD s.length 0, k]) *
      y.get (bidx ys (i.take s.length) ++ [k, i.getD (s.length + 1) 0])⟩, ?_, rfl, ?_⟩
  · unfold matmul
    simp [hx, hy, hs]
  · intro pre i j hp
    have h1 : (pre ++ [i, j]).take s.length = pre := by rw [← hp]; simp
    have h2 : (pre ++ [i, j]).getD s.length 0 = i := by rw [← hp]; simp
    have h3 : (pre ++ [i, j]).getD (s.length + 1) 0 = j := by rw [← hp]; simp
    simp only [h1, h2, h3]

theorem matmul_inv [Field K] {x y r : Tensor K} (h : matmul x y = some r) :
    ∃ xs ys s m p n, x.shape = xs ++ [m, p] ∧ y.shape = ys ++ [p, n] ∧
      bshape xs ys = some s := by
  unfold matmul at h
  split at h
  · rename_i p m xs n p' ys h1 h2
    split_ifs at h with hp
    subst hp
    rw [Option.map_eq_some_iff] at h
    obtain ⟨s, hs, -⟩ := h
    refine ⟨xs.reverse, ys.reverse, s, m, p, n, ?_, ?_, hs⟩
    · rw [← List.reverse_reverse x.shape, h1]; simp
    · rw [← List.reverse_reverse y.shape, h2]; simp
  · simp at h

theorem bshape_length {xs ys s : List ℕ} (h : bshape xs ys = some s) :
    xs.length = s.length ∧ ys.length = s.length := by
  induction xs generalizing ys s with
  | nil => cases ys <;> simp [bshape] at h; subst h; simp
  | cons a xs ih =>
    cases ys with
    | nil => simp [bshape] at h
    | cons b ys =>
      simp only [bshape] at h
      split_ifs at h <;>
      · rw [Option.map_eq_some_iff] at h
        obtain ⟨t, ht, rfl⟩ := h
        have := ih ht
        simp [this.1, this.2]

theorem bshape_self (s : List ℕ) : bshape s s = some s := by
  induction s with
  | nil => rfl
  | cons a s ih => simp [bshape, ih]

/-- Reading inside the shape, broadcasting changes nothing. -/
theorem bidx_valid {s i : List ℕ} (h : Valid s i) : bidx s i = i := by
  induction h with
  | nil => rfl
  | @cons a d i s h1 h2 ih =>
    simp only [bidx, List.zipWith_cons_cons, List.cons.injEq]
    refine ⟨?_, ih⟩
    split_ifs with hd
    · omega
    · rfl

theorem bidx_length {s i : List ℕ} (h : i.length = s.length) : (bidx s i).length = s.length := by
  simp [bidx, h]

theorem bidx_append {s t i j : List ℕ} (h : i.length = s.length) :
    bidx (s ++ t) (i ++ j) = bidx s i ++ bidx t j := by
  unfold bidx
  rw [List.zipWith_append (by omega)]

/-- Reading an index of the common shape through broadcasting is inside the shape. -/
theorem bidx_left {xs ys s i : List ℕ} (h : bshape xs ys = some s) (hi : Valid s i) :
    Valid xs (bidx xs i) ∧ Valid ys (bidx ys i) := by
  induction xs generalizing ys s i with
  | nil => cases ys <;> simp [bshape] at h; subst h; rw [hi.cases_nil]; exact ⟨valid_nil, valid_nil⟩
  | cons a xs ih =>
    cases ys with
    | nil => simp [bshape] at h
    | cons b ys =>
      simp only [bshape] at h
      split_ifs at h with h1 h2 <;>
      · rw [Option.map_eq_some_iff] at h
        obtain ⟨t, ht, rfl⟩ := h
        obtain ⟨c, j, rfl, hc, hj⟩ := hi.cases_cons
        have := ih ht hj
        simp only [bidx, List.zipWith_cons_cons, valid_cons]
        refine ⟨⟨?_, this.1⟩, ?_, this.2⟩ <;> split_ifs <;> omega

end MCT.Decomp
