import Verif.Decomp.MatMul
import Verif.Decomp.Lemmas
import Mathlib.Data.Rat.Defs

/-! # The decomposed product computes the product (C107) -/

namespace MCT.Decomp

variable {K : Type}

theorem mid_eq (b : ℕ) (D : List ℕ) (m p : ℕ) : mid (b :: (D ++ [m, p])) = D := by
  simp [mid]

theorem lastTwo_eq (b : ℕ) (D : List ℕ) (m p : ℕ) : lastTwo (b :: (D ++ [m, p])) = [m, p] := by
  have : b :: (D ++ [m, p]) = (b :: D) ++ [m, p] := rfl
  rw [lastTwo, this]
  simp only [List.length_append, List.length_cons, List.length_nil]
  have h : D.length + 1 + (0 + 1 + 1) - 2 = (b :: D).length := by simp
  rw [h, List.drop_left]

theorem expandShape_auto (b : ℕ) {s t : List ℕ}
    (h : List.Forall₂ (fun d e => d = e ∨ d = 1) s t) :
    expandShape (b :: s) (auto t) = some (b :: t) := by
  have : expandShape s (t.map some) = some t := by
    induction h with
    | nil => rfl
    | cons h1 h2 ih => simp [expandShape, h1, ih]
  simp [auto, expandShape, this]

/-- The first part of an operand: stretched to the common sizes. -/
theorem expanded {x : Tensor K} {bx m p : ℕ} {Dx D is os : List ℕ} {c : Prop} [Decidable c]
    (hx : x.shape = bx :: (Dx ++ [m, p]))
    (hc : List.Forall₂ (fun d e => d = e ∨ d = 1) Dx D)
    (hskip : ¬ c → Dx = D) :
    ∃ x1, (if c then broadcastTo (auto (D ++ [m, p])) x else some x) = some x1 ∧
      x1.shape = bx :: (D ++ [m, p]) ∧
      ∀ b d i k, b < bx → Valid D d → i < m → k < p →
        x1.get (b :: (d ++ [i, k])) = x.get (b :: (bidx Dx d ++ [i, k])) := by
  by_cases h : c
  · rw [if_pos h]
    have hc' : List.Forall₂ (fun d e => d = e ∨ d = 1) (Dx ++ [m, p]) (D ++ [m, p]) :=
      List.rel_append hc (by simp)
    refine ⟨⟨bx :: (D ++ [m, p]), fun i => x.get (bidx x.shape i)⟩, ?_, rfl, ?_⟩
    · unfold broadcastTo
      rw [hx, expandShape_auto bx hc']
      rfl
    · intro b d i k hb hd hi hk
      have hl : d.length = Dx.length := by rw [hd.length, hc.length_eq]
      have e1 : bidx (bx :: (Dx ++ [m, p])) (b :: (d ++ [i, k])) =
          b :: (bidx Dx d ++ [i, k]) := by
        have h1 : bidx [bx] [b] = [b] := bidx_valid (by simp [Valid, hb])
        have h2 : bidx [m, p] [i, k] = [i, k] := bidx_valid (by simp [Valid, hi, hk])
        have : bidx ([bx] ++ (Dx ++ [m, p])) ([b] ++ (d ++ [i, k])) =
            [b] ++ (bidx Dx d ++ [i, k]) := by
          rw [bidx_append (by simp), bidx_append hl, h1, h2]
        exact this
      show x.get (bidx x.shape _) = _
      rw [hx, e1]
  · rw [if_neg h]
    have := hskip h
    subst this
    refine ⟨x, rfl, hx, ?_⟩
    intro b d i k _ hd _ _
    rw [bidx_valid hd]

/-- The second part of an operand: the middle dimensions become one. -/
theorem flattened {x1 : Tensor K} {bx m p : ℕ} {D is : List ℕ}
    (hx : x1.shape = bx :: (D ++ [m, p])) (hD : D ≠ []) (hpos : (D.prod * (m * p)) ≠ 0)
    (hl : is.length = D.length + 3) :
    ∃ x2, (if 4 < is.length then reshape (auto (D.prod :: [m, p])) x1 else some x1) = some x2 ∧
      x2.shape = [bx, D.prod, m, p] ∧
      ∀ b f i k, b < bx → f < D.prod → i < m → k < p →
        x2.get [b, f, i, k] = x1.get (b :: (unflat D f ++ [i, k])) := by
  by_cases h : 4 < is.length
  · rw [if_pos h]
    have hp : x1.shape.prod = bx * [D.prod, m, p].prod := by
      rw [hx]; simp
    refine ⟨⟨[bx, D.prod, m, p], fun i => x1.get (unflat x1.shape (flat [bx, D.prod, m, p] i))⟩,
      ?_, rfl, ?_⟩
    · unfold reshape auto
      rw [hp, resolve_auto (by simpa [Nat.mul_assoc] using hpos)]
      rfl
    · intro b f i k hb hf hi hk
      have hv : Valid x1.shape (b :: (unflat D f ++ [i, k])) := by
        rw [hx, valid_cons, valid_append (unflat_valid hf).length]
        exact ⟨hb, unflat_valid hf, by simp [Valid, hi, hk]⟩
      show x1.get (unflat x1.shape (flat [bx, D.prod, m, p] [b, f, i, k])) = _
      rw [unflat_eq _ hv]
      rw [hx]
      show _ = b * (D ++ [m, p]).prod + flat (D ++ [m, p]) (unflat D f ++ [i, k])
      rw [flat_append (unflat_valid hf).length, flat_unflat hf]
      simp [flat, List.prod_append]
  · rw [if_neg h]
    obtain ⟨d0, rfl⟩ : ∃ d0, D = [d0] := by
      cases D with
      | nil => exact absurd rfl hD
      | cons a D =>
        cases D with
        | nil => exact ⟨a, rfl⟩
        | cons b D => simp at hl; omega
    refine ⟨x1, rfl, by simpa using hx, ?_⟩
    intro b f i k _ _ _ _
    simp [unflat]

/-- A slice of an operand. -/
def slice (bx m p : ℕ) (t : Tensor K) (f : ℕ) : Tensor K :=
  ⟨[bx, m, p], fun i => t.get (i.getD 0 0 :: f :: i.drop 1)⟩

theorem unbind1_eq {t : Tensor K} {bx d m p : ℕ} (h : t.shape = [bx, d, m, p]) :
    unbind1 t = some ((List.range d).map (slice bx m p t)) := by
  unfold unbind1
  rw [h]
  rfl

/-- One operand up to the split. -/
theorem operand_spec {x : Tensor K} {bx m p b0 b1 : ℕ} {Dx D is os Dy q : List ℕ}
    (hx : x.shape = bx :: (Dx ++ [m, p])) (his : is = b0 :: (Dx ++ [m, p]))
    (hos : mid os = Dy)
    (hc : List.Forall₂ (fun d e => d = e ∨ d = 1) Dx D)
    (hDxy : Dx = Dy → Dx = D)
    (hD : D ≠ []) (hpos : (D.prod * (m * p)) ≠ 0) :
    ∃ x2, operand is os (D ++ [m, p]) (D.prod :: [m, p]) x =
        some ((List.range D.prod).map (slice bx m p x2)) ∧
      ∀ b f i k, b < bx → f < D.prod → i < m → k < p →
        x2.get [b, f, i, k] = x.get (b :: (bidx Dx (unflat D f) ++ [i, k])) := by
  have hmid : mid is = Dx := by rw [his, mid_eq]
  obtain ⟨x1, h1, hs1, hg1⟩ := expanded (c := mid is ≠ mid os ∧ is.drop 1 ≠ D ++ [m, p])
    (is := is) (os := os) hx hc (by
      intro hn
      by_cases h : mid is = mid os
      · rw [hmid, hos] at h; exact hDxy h
      · have h2 : is.drop 1 = D ++ [m, p] := by
          by_contra h3; exact hn ⟨h, h3⟩
        rw [his] at h2
        simpa using h2)
  obtain ⟨x2, h2, hs2, hg2⟩ := flattened (is := is) hs1 hD hpos (by
    rw [his, ← hc.length_eq]; simp)
  refine ⟨x2, ?_, ?_⟩
  · unfold operand
    rw [h1, Option.bind_some, h2, Option.bind_some]
    exact unbind1_eq hs2
  · intro b f i k hb hf hi hk
    rw [hg2 b f i k hb hf hi hk, hg1 b _ i k hb (unflat_valid hf) hi hk]

theorem products_eq [Field K] {n : ℕ} {f g h : ℕ → Tensor K}
    (hm : ∀ i < n, matmul (f i) (g i) = some (h i)) :
    products n ((List.range n).map f) ((List.range n).map g) = some ((List.range n).map h) := by
  unfold products
  apply mapM_some
  intro i hi
  have hi' := List.mem_range.1 hi
  simp [hi', hm i hi']

theorem stack1_eq {n b : ℕ} {r : List ℕ} {h : ℕ → Tensor K} (hn : 0 < n)
    (hs : ∀ i < n, (h i).shape = b :: r) :
    ∃ t, stack1 ((List.range n).map h) = some t ∧ t.shape = b :: n :: r ∧
      ∀ a f i, f < n → t.get (a :: f :: i) = (h f).get (a :: i) := by
  obtain ⟨n, rfl⟩ : ∃ k, n = k + 1 := ⟨n - 1, by omega⟩
  have e : (List.range (n + 1)).map h = h 0 :: ((List.range n).map fun i => h (i + 1)) := by
    rw [List.range_succ_eq_map]; simp [Function.comp_def]
  refine ⟨⟨b :: (n + 1) :: r, fun i =>
    (((List.range (n + 1)).map h).getD (i.getD 1 0) (h 0)).get (i.getD 0 0 :: i.drop 2)⟩,
    ?_, rfl, ?_⟩
  · have hall : ((List.range (n + 1)).map h).all (fun u => u.shape == (h 0).shape) = true := by
      rw [List.all_eq_true]
      intro u hu
      obtain ⟨i, hi, rfl⟩ := List.mem_map.1 hu
      rw [hs i (List.mem_range.1 hi), hs 0 (by omega)]
      simp
    have hlen : ((List.range (n + 1)).map h).length = n + 1 := by simp
    unfold stack1
    rw [e] at hall hlen ⊢
    simp only [hs 0 (by omega : 0 < n + 1)] at hall ⊢
    rw [if_pos hall, hlen]
  · intro a f i hf
    show (((List.range (n + 1)).map h).getD f (h 0)).get (a :: i) = _
    simp [List.getD, hf]

/-- Common sizes with no zero: the larger ones. -/
theorem bshape_max {xs ys s : List ℕ} (h : bshape xs ys = some s) (hx : ∀ d ∈ xs, 0 < d)
    (hy : ∀ d ∈ ys, 0 < d) :
    List.zipWith max xs ys = s ∧ List.Forall₂ (fun d e => d = e ∨ d = 1) xs s ∧
      List.Forall₂ (fun d e => d = e ∨ d = 1) ys s ∧ (xs = ys → xs = s) ∧ ∀ d ∈ s, 0 < d := by
  induction xs generalizing ys s with
  | nil => cases ys <;> simp [bshape] at h; subst h; simp
  | cons a xs ih =>
    cases ys with
    | nil => simp [bshape] at h
    | cons b ys =>
      have ha := hx a (by simp)
      have hb := hy b (by simp)
      simp only [bshape] at h
      split_ifs at h with h1 h2
      · rw [Option.map_eq_some_iff] at h
        obtain ⟨t, ht, rfl⟩ := h
        obtain ⟨i1, i2, i3, i4, i5⟩ := ih ht (fun d hd => hx d (by simp [hd]))
          fun d hd => hy d (by simp [hd])
        refine ⟨by simp [i1]; omega, by simp [i2], by simp [i3]; omega, ?_, ?_⟩
        · intro he
          simp at he
          rw [i4 he.2]
        · intro d hd
          rcases List.mem_cons.1 hd with rfl | hd
          · exact ha
          · exact i5 d hd
      · rw [Option.map_eq_some_iff] at h
        obtain ⟨t, ht, rfl⟩ := h
        obtain ⟨i1, i2, i3, i4, i5⟩ := ih ht (fun d hd => hx d (by simp [hd]))
          fun d hd => hy d (by simp [hd])
        refine ⟨by simp [i1]; omega, by simp [i2]; omega, by simp [i3], ?_, ?_⟩
        · intro he
          simp at he
          rw [i4 he.2, he.1]
        · intro d hd
          rcases List.mem_cons.1 hd with rfl | hd
          · exact hb
          · exact i5 d hd

theorem prod_ne_zero {s : List ℕ} (h : ∀ d ∈ s, 0 < d) : s.prod ≠ 0 := by
  induction s with
  | nil => simp
  | cons a s ih =>
    have h1 := h a (by simp)
    have h2 := ih fun d hd => h d (by simp [hd])
    simp only [List.prod_cons]
    exact Nat.mul_ne_zero (by omega) h2

/-- C107: for all operands of the same rank, at least four, whose product PyTorch defines,
the decomposed product is defined and is the product: same shape, same entries.  The sizes
are those of the traced model, except for the batch size, which may be any. -/
theorem C107_matmul_partial [Field K] {x y r : Tensor K} {is os : List ℕ}
    (hr : matmul x y = some r) (hrank : 4 ≤ x.shape.length)
    (hx0 : ∀ d ∈ x.shape, 0 < d) (hy0 : ∀ d ∈ y.shape, 0 < d)
    (his : is.length = x.shape.length ∧ is.drop 1 = x.shape.drop 1)
    (hos : os.length = y.shape.length ∧ os.drop 1 = y.shape.drop 1) :
    ∃ o, runMatMul is os x y = some o ∧ Same o r := by
  obtain ⟨xs, ys, s, m, p, n, hx, hy, hs⟩ := matmul_inv hr
  have hlen := bshape_length hs
  obtain ⟨bx, Dx, rfl⟩ : ∃ bx Dx, xs = bx :: Dx := by
    cases xs with
    | nil => rw [hx] at hrank; simp at hrank
    | cons a l => exact ⟨a, l, rfl⟩
  obtain ⟨bb, D, rfl⟩ : ∃ bb D, s = bb :: D := by
    cases s with
    | nil => simp at hlen
    | cons a l => exact ⟨a, l, rfl⟩
  obtain ⟨by', Dy, rfl⟩ : ∃ by' Dy, ys = by' :: Dy := by
    cases ys with
    | nil => simp at hlen
    | cons a l => exact ⟨a, l, rfl⟩
  have hDx : Dx ≠ [] := by
    rintro rfl; rw [hx] at hrank; simp at hrank
  have hD : D ≠ [] := by
    rintro rfl
    have : Dx.length = 0 := by simpa using hlen.1
    exact hDx (List.eq_nil_of_length_eq_zero this)
  obtain ⟨r', hr', hrs, hrg⟩ := matmul_append hx hy hs
  rw [hr] at hr'; cases hr'
  have hxp : ∀ d ∈ bx :: Dx, 0 < d := fun d hd => hx0 d (by rw [hx]; exact List.mem_append_left _ hd)
  have hyp : ∀ d ∈ by' :: Dy, 0 < d := fun d hd => hy0 d (by rw [hy]; exact List.mem_append_left _ hd)
  have hm : 0 < m := hx0 m (by rw [hx]; simp)
  have hp : 0 < p := hx0 p (by rw [hx]; simp)
  have hn : 0 < n := hy0 n (by rw [hy]; simp)
  obtain ⟨hbb, hDD⟩ : bshape [bx] [by'] = some [bb] ∧ bshape Dx Dy = some D := by
    simp only [bshape] at hs ⊢
    split_ifs at hs ⊢ <;> simp_all
  obtain ⟨hmax, hcx, hcy, hexy, hDp⟩ := bshape_max hDD (fun d hd => hxp d (by simp [hd]))
    fun d hd => hyp d (by simp [hd])
  have heyx : Dy = Dx → Dy = D := fun h => by rw [h]; exact hexy h.symm
  have hDprod := prod_ne_zero hDp
  obtain ⟨b0, rfl⟩ : ∃ b0, is = b0 :: (Dx ++ [m, p]) := by
    cases is with
    | nil => rw [hx] at his; simp at his
    | cons a l => exact ⟨a, by rw [hx] at his; simp at his; rw [his.2]⟩
  obtain ⟨b1, rfl⟩ : ∃ b1, os = b1 :: (Dy ++ [p, n]) := by
    cases os with
    | nil => rw [hy] at hos; simp at hos
    | cons a l => exact ⟨a, by rw [hy] at hos; simp at hos; rw [hos.2]⟩
  obtain ⟨x2, hox, hgx⟩ := operand_spec (os := b1 :: (Dy ++ [p, n])) (b1 := 0) (q := []) hx rfl
    (mid_eq _ _ _ _) hcx hexy hD
    (Nat.mul_ne_zero hDprod (Nat.mul_ne_zero (by omega) (by omega)))
  obtain ⟨y2, hoy, hgy⟩ := operand_spec (x := y) (os := b0 :: (Dx ++ [m, p])) (b1 := 0) (q := [])
    hy rfl (mid_eq _ _ _ _) hcy heyx hD
    (Nat.mul_ne_zero hDprod (Nat.mul_ne_zero (by omega) (by omega)))
  -- the products of the slices
  have hslice : ∀ f < D.prod, ∃ t, matmul (slice bx m p x2 f) (slice by' p n y2 f) = some t ∧
      t.shape = bb :: [m, n] ∧ ∀ b i j, b < bb → i < m → j < n →
        t.get [b, i, j] = r.get (b :: (unflat D f ++ [i, j])) := by
    intro f hf
    obtain ⟨t, h1, h2, h3⟩ := matmul_append (x := slice bx m p x2 f) (y := slice by' p n y2 f)
      (xs := [bx]) (ys := [by']) (m := m) (p := p) (n := n) rfl rfl hbb
    refine ⟨t, h1, h2, ?_⟩
    intro b i j hb hi hj
    have hv : Valid [bb] [b] := by simp [Valid, hb]
    have hbv := bidx_left hbb hv
    have hg := h3 [b] i j rfl
    have hg' := hrg (b :: unflat D f) i j (by simp [(unflat_valid hf).length])
    rw [show ([b] ++ [i, j] : List ℕ) = [b, i, j] from rfl] at hg
    rw [show (b :: unflat D f ++ [i, j] : List ℕ) = b :: (unflat D f ++ [i, j]) from rfl] at hg'
    rw [hg, hg']
    apply sumN_congr
    intro k hk
    obtain ⟨c, hc1, hc2⟩ : ∃ c, bidx [bx] [b] = [c] ∧ c < bx := by
      refine ⟨if bx = 1 then 0 else b, rfl, ?_⟩
      have := hbv.1
      simpa [bidx, Valid] using this
    obtain ⟨c', hc1', hc2'⟩ : ∃ c, bidx [by'] [b] = [c] ∧ c < by' := by
      refine ⟨if by' = 1 then 0 else b, rfl, ?_⟩
      have := hbv.2
      simpa [bidx, Valid] using this
    have e1 : bidx (bx :: Dx) (b :: unflat D f) = c :: bidx Dx (unflat D f) := by
      have : bidx ([bx] ++ Dx) ([b] ++ unflat D f) = [c] ++ bidx Dx (unflat D f) := by
        rw [bidx_append (by simp), hc1]
      exact this
    have e2 : bidx (by' :: Dy) (b :: unflat D f) = c' :: bidx Dy (unflat D f) := by
      have : bidx ([by'] ++ Dy) ([b] ++ unflat D f) = [c'] ++ bidx Dy (unflat D f) := by
        rw [bidx_append (by simp), hc1']
      exact this
    rw [e1, e2, hc1, hc1']
    show x2.get [c, f, i, k] * y2.get [c', f, k, j] = _
    rw [hgx c f i k hc2 hf hi hk, hgy c' f k j hc2' hf hk hj]
    rfl
  haveI : Nonempty (Tensor K) := ⟨x⟩
  choose! h hh using hslice
  obtain ⟨st, hst, hss, hsg⟩ := stack1_eq (n := D.prod) (b := bb) (r := [m, n]) (h := h)
    (Nat.pos_of_ne_zero hDprod) fun i hi => (hh i hi).2.1
  have hparams : matMulParams (b0 :: (Dx ++ [m, p])) (b1 :: (Dy ++ [p, n])) =
      ⟨D ++ [m, p], D ++ [p, n], [D.prod, m, p], [D.prod, p, n], [D.prod, m, n],
        D ++ [m, n]⟩ := by
    simp [matMulParams, mid_eq, lastTwo_eq, hmax]
  have hprod : products D.prod ((List.range D.prod).map (slice bx m p x2))
      ((List.range D.prod).map (slice by' p n y2)) = some ((List.range D.prod).map h) :=
    products_eq fun i hi => (hh i hi).1
  have hpre : runMatMul (b0 :: (Dx ++ [m, p])) (b1 :: (Dy ++ [p, n])) x y =
      if [D.prod, m, n] ≠ D ++ [m, n] then reshape (auto (D ++ [m, n])) st else some st := by
    unfold runMatMul
    simp only [hparams]
    rw [hox, Option.bind_some, hoy, Option.bind_some, List.getD_cons_zero, hprod,
      Option.bind_some, hst, Option.bind_some]
  rw [hpre]
  have hval : ∀ i, Valid (bb :: (D ++ [m, n])) i → ∃ b d u v, i = b :: (d ++ [u, v]) ∧ b < bb ∧
      Valid D d ∧ u < m ∧ v < n := by
    intro i hi
    obtain ⟨b, i1, rfl, hb, hi1⟩ := hi.cases_cons
    obtain ⟨d, w, rfl, hd, hw⟩ := hi1.split
    obtain ⟨u, w1, rfl, hu, hw1⟩ := hw.cases_cons
    obtain ⟨v, w2, rfl, hv, hw2⟩ := hw1.cases_cons
    rw [hw2.cases_nil]
    exact ⟨b, d, u, v, rfl, hb, hd, hu, hv⟩
  split_ifs with hne
  · have hp0 : (D ++ [m, n]).prod ≠ 0 := by
      rw [List.prod_append]
      exact Nat.mul_ne_zero hDprod (by simp; omega)
    have htot : st.shape.prod = bb * (D ++ [m, n]).prod := by
      rw [hss]; simp [List.prod_append]
    refine ⟨⟨bb :: (D ++ [m, n]), fun i =>
      st.get (unflat st.shape (flat (bb :: (D ++ [m, n])) i))⟩, ?_, ?_, ?_⟩
    · unfold reshape auto
      rw [htot, resolve_auto hp0]
      rfl
    · rw [hrs]; rfl
    · intro i hi
      obtain ⟨b, d, u, v, rfl, hb, hd, hu, hv⟩ := hval i hi
      have hf := flat_lt hd
      show st.get (unflat st.shape _) = _
      have hvs : Valid st.shape [b, flat D d, u, v] := by
        rw [hss]; simp [Valid, hb, hf, hu, hv]
      rw [unflat_eq (j := [b, flat D d, u, v]) _ hvs, hsg b _ [u, v] hf,
        (hh _ hf).2.2 b u v hb hu hv, unflat_flat hd]
      rw [hss]
      show b * (D ++ [m, n]).prod + flat (D ++ [m, n]) (d ++ [u, v]) = _
      rw [flat_append hd.length]
      simp [flat, List.prod_append]
  · have he : [D.prod, m, n] = D ++ [m, n] := by
      by_contra h0; exact hne h0
    have hst' : st.shape = r.shape := by
      rw [hss, hrs]
      show bb :: [D.prod, m, n] = bb :: (D ++ [m, n])
      rw [he]
    refine ⟨st, rfl, hst', ?_⟩
    intro i hi
    rw [hst', hrs] at hi
    obtain ⟨b, d, u, v, rfl, hb, hd, hu, hv⟩ := hval i hi
    obtain ⟨d0, rfl⟩ : ∃ d0, D = [d0] := by
      have := congrArg List.length he
      simp at this
      exact List.length_eq_one_iff.1 (by omega)
    obtain ⟨a, w, rfl, ha, hw⟩ := hd.cases_cons
    rw [hw.cases_nil]
    have ha' : a < [d0].prod := by simpa using ha
    have := (hh a ha').2.2 b u v hb hu hv
    show st.get (b :: a :: [u, v]) = _
    rw [hsg b a [u, v] ha', this]
    simp [unflat]

theorem inEdges_pair {a b : Arg} (ha : a.const = false) (hb : b.const = false)
    (h : a.node ≠ b.node) : connectMatMul (inEdges [a, b]) = some (a.node, b.node) := by
  have hab : a ≠ b := fun e => h (by rw [e])
  have h1 : allInputs [a, b] = [a, b] := by
    have hba : b ≠ a := fun e => hab e.symm
    simp [allInputs, List.eraseDups_cons, hba]
  have hc1 : [a, b].count a = 1 := by simp [List.count_cons, hab.symm]
  have hc2 : [a, b].count b = 1 := by simp [List.count_cons, hab]
  have i1 : [a, b].idxOf a = 0 := by simp
  have i2 : [a, b].idxOf b = 1 := by simp [List.idxOf_cons, hab]
  unfold inEdges
  rw [h1]
  have hf : [a, b].filter (fun a => !a.const) = [a, b] := by simp [ha, hb]
  rw [hf]
  by_cases hle : a.node ≤ b.node
  · have : ([a, b] : List Arg).insertionSort (fun a b => a.node ≤ b.node) = [a, b] := by
      simp [List.insertionSort, List.orderedInsert, hle]
    rw [this]
    simp [hc1, hc2, i1, i2, connectMatMul]
  · have : ([a, b] : List Arg).insertionSort (fun a b => a.node ≤ b.node) = [b, a] := by
      simp [List.insertionSort, List.orderedInsert, hle]
    rw [this]
    simp [hc1, hc2, i1, i2, connectMatMul]

/-- C107: a product of two different tensors that the model computes, in any order, is
after the substitution still their product (first operand first), for every rank. -/
theorem C107_call_partial [Field K] {shape : ℕ → List ℕ} {val : ℕ → Tensor K} {a b : Arg}
    {r : Tensor K} (ha : a.const = false) (hb : b.const = false) (hab : a.node ≠ b.node)
    (hr : matmul (val a.node) (val b.node) = some r)
    (hx0 : ∀ d ∈ (val a.node).shape, 0 < d) (hy0 : ∀ d ∈ (val b.node).shape, 0 < d)
    (his : (shape a.node).length = (val a.node).shape.length ∧
      (shape a.node).drop 1 = (val a.node).shape.drop 1)
    (hos : (shape b.node).length = (val b.node).shape.length ∧
      (shape b.node).drop 1 = (val b.node).shape.drop 1) :
    ∃ o, matMulCall shape val a b = some o ∧ Same o r := by
  have hsh : inputShapes shape [a, b] = [shape a.node, shape b.node] := by
    have hba : b ≠ a := fun e => hab (by rw [e])
    simp [inputShapes, allInputs, List.eraseDups_cons, hba]
  unfold matMulCall
  simp only [hsh]
  have hl : (val a.node).shape.length = (val b.node).shape.length := by
    obtain ⟨xs, ys, s, m, p, n, h1, h2, h3⟩ := matmul_inv hr
    have := bshape_length h3
    rw [h1, h2]; simp [this.1, this.2]
  split_ifs with h3 hne
  · exact ⟨r, hr, rfl, fun i _ => rfl⟩
  · rw [his.1, hos.1] at hne; exact absurd hl hne
  · rw [inEdges_pair ha hb hab, Option.bind_some]
    refine C107_matmul_partial hr ?_ hx0 hy0 his hos
    rw [his.1, hos.1] at h3
    show 4 ≤ (val a.node).shape.length
    omega

/-- A tensor of ones of a given shape. -/
def ones (s : List ℕ) : Tensor ℚ := ⟨s, fun _ => 1⟩

/-- Not vacuous: a product with stretched sizes, the second operand computed first. -/
example : ∃ r, matmul (⟨[2, 3, 1, 2, 2], fun i => (flat [2, 3, 1, 2, 2] i : ℚ)⟩ : Tensor ℚ)
      ⟨[2, 1, 2, 2, 1], fun i => (flat [2, 1, 2, 2, 1] i : ℚ)⟩ = some r ∧
    r.shape = [2, 3, 2, 2, 1] ∧ r.get [1, 2, 1, 0, 0] = 20 * 6 + 21 * 7 ∧
    ((matMulCall (K := ℚ) (fun n => if n = 7 then [9, 3, 1, 2, 2] else [9, 1, 2, 2, 1])
      (fun n => if n = 7 then ⟨[2, 3, 1, 2, 2], fun i => (flat [2, 3, 1, 2, 2] i : ℚ)⟩
        else ⟨[2, 1, 2, 2, 1], fun i => (flat [2, 1, 2, 2, 1] i : ℚ)⟩)
      ⟨7, false⟩ ⟨4, false⟩).map fun o => (o.shape, o.get [1, 2, 1, 0, 0])) =
      some ([2, 3, 2, 2, 1], 20 * 6 + 21 * 7) := by
  refine ⟨_, rfl, ?_, ?_, ?_⟩ <;> decide +kernel

/-- C107 fails for the product of a tensor with itself, of any rank: the node has one input
shape where the substitution reads two, so preparing the model fails. -/
theorem C107_same_violated [Field K] (shape : ℕ → List ℕ) (val : ℕ → Tensor K) (a : Arg) :
    matMulCall shape val a a = none ∧
      (matmul (ones [1, 2, 2]) (ones [1, 2, 2])).isSome = true := by
  refine ⟨?_, rfl⟩
  simp [matMulCall, inputShapes, allInputs, List.eraseDups_cons]

/-- C107 fails for the product with a constant of rank at least four: the node has one
in-edge where the substitution unpacks two. -/
theorem C107_constant_violated :
    (matmul (ones [1, 1, 2, 2]) (ones [1, 1, 2, 2])).isSome = true ∧
      (matMulCall (fun _ => [1, 1, 2, 2]) (fun _ => ones [1, 1, 2, 2]) ⟨0, false⟩
        ⟨1, true⟩).isNone = true := by
  decide +kernel

/-- C107 fails for an empty dimension: PyTorch returns an empty tensor, the decomposed
product does not run. -/
theorem C107_empty_violated :
    (matmul (ones [1, 0, 2, 2]) (ones [1, 0, 2, 2])).map (·.shape) = some [1, 0, 2, 2] ∧
      (matMulCall (fun _ => [1, 0, 2, 2]) (fun _ => ones [1, 0, 2, 2]) ⟨0, false⟩
        ⟨1, false⟩).isNone = true := by
  decide +kernel

end MCT.Decomp
