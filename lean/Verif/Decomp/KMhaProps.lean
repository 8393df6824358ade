import Verif.Decomp.KMha
import Verif.Decomp.MhaProps

/-! # The decomposed Keras attention layer computes the layer (C126) -/

namespace MCT.Decomp

variable {K : Type}

/-! ### Permutations -/

/-- The entries of an index at given dimensions. -/
def sel (perm x : List ℕ) : List ℕ := perm.map fun a => x.getD a 0

theorem sel_unsel {perm : List ℕ} {n : ℕ} (hp : perm.Perm (List.range n)) {x : List ℕ} (hx : x.length = n) :
    ((List.range n).map fun a => (sel perm x).getD (perm.idxOf a) 0) = x := by
  apply List.ext_getElem
  · simp [hx]
  · intro i h1 h2
    have hi : i < n := by simpa using h1
    have hmem : i ∈ perm := hp.mem_iff.mpr (List.mem_range.mpr hi)
    have hidx : perm.idxOf i < perm.length := List.idxOf_lt_length_iff.mpr hmem
    have hget : perm[perm.idxOf i] = i := List.getElem_idxOf hidx
    simp only [List.getElem_map, List.getElem_range]
    unfold sel
    rw [List.getD_eq_getElem?_getD, List.getElem?_eq_getElem (by simpa using hidx)]
    simp only [Option.getD_some, List.getElem_map]
    rw [hget, List.getD_eq_getElem?_getD, List.getElem?_eq_getElem h2]
    rfl

theorem permute_get {perm : List ℕ} {t : Tensor K} (hp : perm.Perm (List.range t.shape.length)) :
    ∃ r, permute perm t = some r ∧ r.shape = sel perm t.shape ∧
      ∀ x, x.length = t.shape.length → r.get (sel perm x) = t.get x := by
  refine ⟨_, by unfold permute; rw [if_pos hp], rfl, ?_⟩
  intro x hx
  show t.get _ = t.get x
  rw [sel_unsel hp hx]

theorem outPerm_idx {perm : List ℕ} {n : ℕ} (hp : perm.Perm (List.range n)) :
    (outPerm perm).Perm (List.range n) ∧ ∀ x : List ℕ,
      ((List.range n).map fun a => x.getD ((outPerm perm).idxOf a) 0) = sel perm x := by
  have hlen : perm.length = n := by simpa using hp.length_eq
  have hnd : perm.Nodup := hp.nodup_iff.mpr List.nodup_range
  have hmem : ∀ i, i < n → perm.idxOf i < n := fun i hi =>
    hlen ▸ List.idxOf_lt_length_iff.mpr (hp.mem_iff.mpr (List.mem_range.mpr hi))
  have hinj : ∀ i < n, ∀ j < n, perm.idxOf i = perm.idxOf j → i = j := by
    intro i hi j hj h
    have h1 : perm.idxOf i < perm.length := hlen ▸ hmem i hi
    have h2 : perm.idxOf j < perm.length := hlen ▸ hmem j hj
    rw [← List.getElem_idxOf h1, ← List.getElem_idxOf h2]
    simp only [h]
  have hond : (outPerm perm).Nodup := by
    unfold outPerm
    rw [hlen]
    refine List.Nodup.map_on ?_ List.nodup_range
    intro i hi j hj h
    exact hinj i (List.mem_range.mp hi) j (List.mem_range.mp hj) h
  have hsub : ∀ a ∈ outPerm perm, a < n := by
    intro a ha
    obtain ⟨i, hi, rfl⟩ := List.mem_map.mp ha
    exact hmem i (by simpa [hlen] using hi)
  have hperm : (outPerm perm).Perm (List.range n) := by
    apply List.Perm.symm
    have hsp : (outPerm perm).Subperm (List.range n) :=
      List.subperm_of_subset hond fun a ha => List.mem_range.mpr (hsub a ha)
    exact (hsp.perm_of_length_le (by simp [outPerm, hlen])).symm
  refine ⟨hperm, ?_⟩
  intro x
  unfold sel
  apply List.ext_getElem
  · simp [hlen]
  · intro i h1 h2
    have hi : i < n := by simpa using h1
    have hip : i < perm.length := by rw [hlen]; exact hi
    simp only [List.getElem_map, List.getElem_range]
    congr 1
    have hpi : perm[i] < n := List.mem_range.mp (hp.mem_iff.mp (List.getElem_mem hip))
    have ho : (outPerm perm)[perm[i]]'(by simpa [outPerm, hlen] using hpi) = i := by
      unfold outPerm
      simp only [List.getElem_map, List.getElem_range]
      exact hnd.idxOf_getElem i hip
    have := hond.idxOf_getElem perm[i] (by simpa [outPerm, hlen] using hpi)
    rw [ho] at this
    exact this

/-! ### The dimensions -/

theorem midAxes_eq {qs ks : List ℕ} {r : ℕ} (hq : qs.length = r + 2) (hk : ks.length = r + 2) :
    midAxes qs ks = (List.range r).map (· + 1) := by
  unfold midAxes
  rw [hq, hk]
  simp

theorem mem_midAxes {qs ks : List ℕ} {r : ℕ} (hq : qs.length = r + 2) (hk : ks.length = r + 2) (a : ℕ) :
    a ∈ midAxes qs ks ↔ 1 ≤ a ∧ a ≤ r := by
  rw [midAxes_eq hq hk, List.mem_map]
  constructor
  · rintro ⟨i, hi, rfl⟩
    have := List.mem_range.mp hi
    omega
  · intro h
    exact ⟨a - 1, List.mem_range.mpr (by omega), by omega⟩

theorem midAxes_nodup (qs ks : List ℕ) : (midAxes qs ks).Nodup := by
  unfold midAxes
  exact List.Nodup.map (fun a b h => by simpa using h) List.nodup_range

theorem att_perm {axes qs ks : List ℕ} {r : ℕ} (hq : qs.length = r + 2) (hk : ks.length = r + 2)
    (hnd : axes.Nodup) (hax : ∀ a ∈ axes, 1 ≤ a ∧ a ≤ r) : ((midAxes qs ks).filter axes.contains).Perm axes := by
  rw [List.perm_ext_iff_of_nodup ((midAxes_nodup qs ks).filter _) hnd]
  intro a
  rw [List.mem_filter, mem_midAxes hq hk]
  constructor
  · intro h; simpa using h.2
  · intro h; exact ⟨hax a h, by simpa using h⟩

theorem attProd_eq {axes qs ks : List ℕ} {r : ℕ} (hq : qs.length = r + 2) (hk : ks.length = r + 2)
    (hnd : axes.Nodup) (hax : ∀ a ∈ axes, 1 ≤ a ∧ a ≤ r) (s : List ℕ) :
    attProd axes qs ks s = (sel axes s).prod := by
  unfold attProd sel
  exact ((att_perm hq hk hnd hax).map _).prod_eq

theorem permDims_perm {axes qs ks : List ℕ} {r : ℕ} (hq : qs.length = r + 2) (hk : ks.length = r + 2)
    (hnd : axes.Nodup) (hax : ∀ a ∈ axes, 1 ≤ a ∧ a ≤ r) : (permDims axes qs ks).Perm (List.range (r + 2)) := by
  have h1 : (iterAxes axes qs ks ++ axes).Perm (midAxes qs ks) := by
    have h2 := List.filter_append_perm (fun a => axes.contains a) (midAxes qs ks)
    have h3 : (iterAxes axes qs ks ++ axes).Perm
        ((midAxes qs ks).filter axes.contains ++ (midAxes qs ks).filter fun a => !axes.contains a) :=
      (List.perm_append_comm).trans ((att_perm hq hk hnd hax).symm.append_right _)
    exact h3.trans h2
  unfold permDims
  have e : List.range (r + 2) = 0 :: (midAxes qs ks ++ [r + 1]) := by
    rw [midAxes_eq hq hk, List.range_succ, List.range_succ_eq_map]
    simp
  rw [e, hq]
  show (0 :: (iterAxes axes qs ks ++ axes ++ [r + 1])).Perm _
  exact (h1.append_right _).cons 0

theorem permDims_inner (axes qs ks : List ℕ) :
    ((permDims axes qs ks).drop 1).dropLast = iterAxes axes qs ks ++ axes := by
  unfold permDims
  rw [List.cons_append, List.cons_append, List.drop_one, List.tail_cons, List.dropLast_concat]

/-! ### Reshapes -/

theorem flat_mid {n c : ℕ} {A B a' b' : List ℕ} (ha : a'.length = A.length) (hb : b'.length = B.length) (b c' : ℕ) :
    flat (n :: A ++ B ++ [c]) (b :: a' ++ b' ++ [c']) = flat [n, A.prod, B.prod, c] [b, flat A a', flat B b', c'] := by
  have e1 : n :: A ++ B ++ [c] = [n] ++ (A ++ (B ++ [c])) := by simp
  have e2 : b :: a' ++ b' ++ [c'] = [b] ++ (a' ++ (b' ++ [c'])) := by simp
  rw [e1, e2, flat_append (s := [n]) (i := [b]) rfl, flat_append ha, flat_append hb]
  simp [flat]

theorem standard_reshape {t : Tensor K} {n c : ℕ} {A B : List ℕ} (ht : t.shape = n :: A ++ B ++ [c]) :
    ∃ r, kreshape [A.prod, B.prod, c] t = some r ∧ r.shape = [n, A.prod, B.prod, c] ∧
      ∀ b a' b' c', b < n → Valid A a' → Valid B b' → c' < c →
        r.get [b, flat A a', flat B b', c'] = t.get (b :: a' ++ b' ++ [c']) := by
  have hs : t.shape = n :: (A ++ B ++ [c]) := by simpa using ht
  refine ⟨⟨[n, A.prod, B.prod, c], fun i => t.get (unflat t.shape (flat [n, A.prod, B.prod, c] i))⟩, ?_, rfl, ?_⟩
  · unfold kreshape reshape fixed
    rw [hs]
    dsimp only
    rw [resolve_full (by simp [List.prod_append])]
    rfl
  · intro b a' b' c' hb ha hb' hc
    show t.get _ = _
    congr 1
    rw [ht, ← flat_mid ha.length hb'.length]
    apply unflat_flat
    have : Valid (n :: (A ++ (B ++ [c]))) (b :: (a' ++ (b' ++ [c']))) := by
      rw [valid_cons, valid_append ha.length, valid_append hb'.length, valid_cons]
      exact ⟨hb, ha, hb', hc, valid_nil⟩
    simpa using this

theorem standard_reshape_back {t : Tensor K} {n c : ℕ} {A B : List ℕ} (ht : t.shape = [n, A.prod, B.prod, c]) :
    ∃ r, kreshape (A ++ B ++ [c]) t = some r ∧ r.shape = n :: A ++ B ++ [c] ∧
      ∀ b a' b' c', b < n → Valid A a' → Valid B b' → c' < c →
        r.get (b :: a' ++ b' ++ [c']) = t.get [b, flat A a', flat B b', c'] := by
  refine ⟨⟨n :: A ++ B ++ [c], fun i => t.get (unflat t.shape (flat (n :: A ++ B ++ [c]) i))⟩, ?_, rfl, ?_⟩
  · unfold kreshape reshape fixed
    rw [ht]
    dsimp only
    rw [resolve_full (by simp [List.prod_append])]
    simp
  · intro b a' b' c' hb ha hb' hc
    show t.get _ = _
    congr 1
    rw [ht, flat_mid ha.length hb'.length]
    apply unflat_flat
    rw [valid_cons, valid_cons, valid_cons, valid_cons]
    exact ⟨hb, flat_lt ha, flat_lt hb', hc, valid_nil⟩

theorem kreshape_drop {t : Tensor K} {n l c : ℕ} (ht : t.shape = [n, 1, l, c]) :
    ∃ r, kreshape [l, c] t = some r ∧ r.shape = [n, l, c] ∧
      ∀ b i j, b < n → i < l → j < c → r.get [b, i, j] = t.get [b, 0, i, j] := by
  refine ⟨⟨[n, l, c], fun i => t.get (unflat t.shape (flat [n, l, c] i))⟩, ?_, rfl, ?_⟩
  · unfold kreshape reshape fixed
    rw [ht]
    dsimp only
    rw [resolve_full (by simp)]
    rfl
  · intro b i j hb hi hj
    show t.get _ = _
    congr 1
    rw [ht]
    apply unflat_eq
    · simp [flat]
    · rw [valid_cons, valid_cons, valid_cons, valid_cons]
      exact ⟨hb, Nat.one_pos, hi, hj, valid_nil⟩

theorem kreshape_add {t : Tensor K} {n l c : ℕ} (ht : t.shape = [n, l, c]) :
    ∃ r, kreshape [1, l, c] t = some r ∧ r.shape = [n, 1, l, c] ∧
      ∀ b i j, b < n → i < l → j < c → r.get [b, 0, i, j] = t.get [b, i, j] := by
  refine ⟨⟨[n, 1, l, c], fun i => t.get (unflat t.shape (flat [n, 1, l, c] i))⟩, ?_, rfl, ?_⟩
  · unfold kreshape reshape fixed
    rw [ht]
    dsimp only
    rw [resolve_full (by simp)]
    rfl
  · intro b i j hb hi hj
    show t.get _ = _
    congr 1
    rw [ht]
    apply unflat_eq
    · simp [flat]
    · rw [valid_cons, valid_cons, valid_cons]
      exact ⟨hb, hi, hj, valid_nil⟩

/-! ### Sums over indices -/

theorem allIdx_flat (s : List ℕ) : (allIdx s).map (flat s) = List.range s.prod := by
  induction s with
  | nil => rfl
  | cons d s ih =>
      unfold allIdx
      rw [List.map_flatMap]
      have e : ∀ i, ((allIdx s).map (i :: ·)).map (flat (d :: s)) = (List.range s.prod).map (i * s.prod + ·) := by
        intro i
        rw [List.map_map, ← ih, List.map_map]
        rfl
      simp only [e]
      rw [List.prod_cons]
      clear ih e
      induction d with
      | zero => simp
      | succ d ih =>
          rw [List.range_succ, List.flatMap_append, ih, Nat.succ_mul, List.range_add]
          simp

theorem allIdx_valid (s : List ℕ) : ∀ i ∈ allIdx s, Valid s i := by
  induction s with
  | nil => intro i hi; simp [allIdx] at hi; subst hi; exact valid_nil
  | cons d s ih =>
      intro i hi
      unfold allIdx at hi
      obtain ⟨a, ha, hi⟩ := List.mem_flatMap.mp hi
      obtain ⟨j, hj, rfl⟩ := List.mem_map.mp hi
      exact valid_cons.mpr ⟨List.mem_range.mp ha, ih j hj⟩

theorem sumN_flat [Field K] (s : List ℕ) (f : ℕ → K) : sumN s.prod f = sumIdx s fun i => f (flat s i) := by
  unfold sumN sumIdx
  rw [← allIdx_flat, List.map_map]
  rfl

theorem sumIdx_congr [Field K] {s : List ℕ} {f g : List ℕ → K} (h : ∀ i, Valid s i → f i = g i) :
    sumIdx s f = sumIdx s g := by
  unfold sumIdx
  congr 1
  exact List.map_congr_left fun i hi => h i (allIdx_valid s i hi)

theorem sumN_mul_index [Field K] (m d : ℕ) (f : ℕ → K) :
    sumN (m * d) f = sumN m fun h => sumN d fun c => f (h * d + c) := by
  unfold sumN
  induction m with
  | zero => simp
  | succ m ih =>
      rw [Nat.succ_mul, List.range_add, List.map_append, List.sum_append, ih, List.range_succ, List.map_append,
        List.sum_append, List.map_map]
      simp [Function.comp_def]

/-! ### Heads -/

theorem projectHead_spec [Field K] {f : K} {w b x : Tensor K} {c hs d n m l h : ℕ} (hw : w.shape = [c, hs, d])
    (hb : b.shape = [hs, d]) (hx : x.shape = [n, m, l, c]) (hh : h < hs) :
    ∃ r, projectHead f true w (some b) h x = some r ∧ r.shape = [n, m, l, d] ∧
      ∀ a i t j, r.get [a, i, t, j] = (sumN c fun k => x.get [a, i, t, k] * (w.get [k, h, j] * f)) + b.get [h, j] * f := by
  unfold projectHead headKernel headBias conv2d
  simp [hw, hb, hx, hh]

theorem sliceIter_spec {t : Tensor K} {n m l c i : ℕ} (ht : t.shape = [n, m, l, c]) (hi : i < m) :
    ∃ r, sliceIter i t = some r ∧ r.shape = [n, 1, l, c] ∧
      ∀ b x y, r.get [b, 0, x, y] = t.get [b, i, x, y] := by
  unfold sliceIter
  simp [ht, hi]

theorem permute021 {t : Tensor K} {n l c : ℕ} (ht : t.shape = [n, l, c]) :
    ∃ r, permute [0, 2, 1] t = some r ∧ r.shape = [n, c, l] ∧ ∀ b i j, r.get [b, j, i] = t.get [b, i, j] := by
  obtain ⟨r, h1, h2, h3⟩ := permute_get (perm := [0, 2, 1]) (t := t) (by rw [ht]; show [0, 2, 1].Perm (List.range 3); decide)
  refine ⟨r, h1, ?_, ?_⟩
  · rw [h2, ht]; rfl
  · intro b i j
    exact h3 [b, i, j] (by rw [ht]; rfl)

theorem matmul3 [Field K] {x y : Tensor K} {n l d s : ℕ} (hx : x.shape = [n, l, d]) (hy : y.shape = [n, d, s]) :
    ∃ r, matmul x y = some r ∧ r.shape = [n, l, s] ∧
      ∀ a i j, a < n → r.get [a, i, j] = sumN d fun k => x.get [a, i, k] * y.get [a, k, j] := by
  obtain ⟨r, h1, h2, h3⟩ := matmul_append (x := x) (y := y) (xs := [n]) (ys := [n])
    (m := l) (p := d) (n := s) hx hy (bshape_self _)
  refine ⟨r, h1, h2, ?_⟩
  intro a i j ha
  have := h3 [a] i j rfl
  have e : bidx [n] [a] = [a] := bidx_valid (valid_cons.mpr ⟨ha, valid_nil⟩)
  rw [e] at this
  exact this

theorem headIter_spec [Field K] (e : K → K) {q k v : Tensor K} {n m tq tk dk dv i : ℕ}
    (hq : q.shape = [n, m, tq, dk]) (hk : k.shape = [n, m, tk, dk]) (hv : v.shape = [n, m, tk, dv]) (hi : i < m) :
    ∃ r, headIter e tq tk dk dv q k v i = some r ∧ r.shape = [n, tq, dv] ∧
      ∀ a t c, a < n → t < tq → c < dv → r.get [a, t, c] = sumN tk fun s =>
        (e (sumN dk fun j => q.get [a, i, t, j] * k.get [a, i, s, j]) /
          sumN tk fun s' => e (sumN dk fun j => q.get [a, i, t, j] * k.get [a, i, s', j])) * v.get [a, i, s, c] := by
  obtain ⟨q1, hq1, sq1, gq1⟩ := sliceIter_spec hq hi
  obtain ⟨k1, hk1, sk1, gk1⟩ := sliceIter_spec hk hi
  obtain ⟨v1, hv1, sv1, gv1⟩ := sliceIter_spec hv hi
  obtain ⟨q2, hq2, sq2, gq2⟩ := kreshape_drop sq1
  obtain ⟨k2, hk2, sk2, gk2⟩ := kreshape_drop sk1
  obtain ⟨v2, hv2, sv2, gv2⟩ := kreshape_drop sv1
  obtain ⟨k3, hk3, sk3, gk3⟩ := permute021 sk2
  obtain ⟨s, hs, ss, gs⟩ := matmul3 sq2 sk3
  obtain ⟨r, hr, sr, gr⟩ := matmul3 (x := softmax e s) (y := v2) (n := n) (l := tq) (d := tk) (s := dv) ss sv2
  refine ⟨r, ?_, sr, ?_⟩
  · unfold headIter
    rw [hq1, Option.bind_some, hk1, Option.bind_some, hv1, Option.bind_some, hq2, Option.bind_some, hk2,
      Option.bind_some, hv2, Option.bind_some, hk3, Option.bind_some, hs, Option.bind_some, hr]
  · intro a t c ha ht hc
    rw [gr a t c ha]
    have hsc : ∀ x < tk, s.get [a, t, x] = sumN dk fun j => q.get [a, i, t, j] * k.get [a, i, x, j] := by
      intro x hx
      rw [gs a t x ha]
      apply sumN_congr
      intro j hj
      rw [gq2 a t j ha ht hj, gq1, gk3, gk2 a x j ha hx hj, gk1]
    apply sumN_congr
    intro x hx
    have hsm : (softmax e s).get [a, t, x] = e (s.get [a, t, x]) / sumN tk fun x' => e (s.get [a, t, x']) := by
      show e (s.get [a, t, x]) / sumN (s.shape.getLastD 0) _ = _
      rw [ss]
      rfl
    rw [hsm, gv2 a x c ha hx hc, gv1, hsc x hx]
    congr 2
    apply sumN_congr
    intro x' hx'
    rw [hsc x' hx']

theorem stackIters_spec {m n tq dv : ℕ} {f : ℕ → Tensor K} (hm : 0 < m) (hf : ∀ i < m, (f i).shape = [n, tq, dv]) :
    ∃ r, stackIters m tq dv ((List.range m).map f) = some r ∧ r.shape = [n, m, tq, dv] ∧
      ∀ b i t c, b < n → i < m → t < tq → c < dv → r.get [b, i, t, c] = (f i).get [b, t, c] := by
  unfold stackIters
  by_cases h1 : m = 1
  · subst h1
    obtain ⟨r, hr, sr, gr⟩ := kreshape_add (hf 0 hm)
    refine ⟨r, ?_, sr, ?_⟩
    · rw [if_pos rfl]
      simpa using hr
    · intro b i t c hb hi ht hc
      have : i = 0 := by omega
      subst this
      exact gr b t c hb ht hc
  · rw [if_neg h1]
    obtain ⟨m, rfl⟩ : ∃ k, m = k + 1 := ⟨m - 1, by omega⟩
    have e : (List.range (m + 1)).map f = f 0 :: ((List.range m).map fun i => f (i + 1)) := by
      rw [List.range_succ_eq_map]; simp [Function.comp_def]
    have hall : ((List.range (m + 1)).map f).all (fun u => u.shape == (f 0).shape) = true := by
      rw [List.all_eq_true]
      intro u hu
      obtain ⟨i, hi, rfl⟩ := List.mem_map.1 hu
      rw [hf i (List.mem_range.1 hi), hf 0 (by omega)]
      simp
    refine ⟨⟨[n, m + 1, tq, dv], fun i => (((List.range (m + 1)).map f).getD (i.getD 1 0) (f 0)).get
      (i.getD 0 0 :: i.drop 2)⟩, ?_, rfl, ?_⟩
    · have hu : stack1 ((List.range (m + 1)).map f) = (match (f 0).shape with
          | b :: r =>
            if ((List.range (m + 1)).map f).all (fun u => u.shape == (f 0).shape) then
              some ⟨b :: ((List.range (m + 1)).map f).length :: r, fun i =>
                (((List.range (m + 1)).map f).getD (i.getD 1 0) (f 0)).get (i.getD 0 0 :: i.drop 2)⟩
            else none
          | [] => none) := by
        conv_lhs => rw [e]
        rw [e]
        rfl
      rw [hu, hall, hf 0 (by omega)]
      simp
    · intro b i t c hb hi ht hc
      show (((List.range (m + 1)).map f).getD i (f 0)).get [b, t, c] = _
      rw [List.getD_eq_getElem?_getD, List.getElem?_eq_getElem (by simpa using hi)]
      simp

theorem catGet_last {n d x y z : ℕ} {h : ℕ → Tensor K} (hs : ∀ i ≤ n, (h i).shape = [x, y, z, d]) (a b t f j : ℕ)
    (hf : f ≤ n) (hj : j < d) :
    catGet 3 (h 0) ((List.range n).map fun i => h (i + 1)) [a, b, t, f * d + j] = (h f).get [a, b, t, j] := by
  induction n generalizing h f with
  | zero =>
      have : f = 0 := by omega
      subst this
      simp [catGet]
  | succ n ih =>
      have e : (List.range (n + 1)).map (fun i => h (i + 1)) =
          h 1 :: ((List.range n).map fun i => h (i + 1 + 1)) := by
        rw [List.range_succ_eq_map]; simp [Function.comp_def]
      rw [e]
      simp only [catGet, hs 0 (by omega)]
      cases f with
      | zero => simp [hj]
      | succ f =>
          have := ih (h := fun i => h (i + 1)) (fun i hi => hs (i + 1) (by omega)) f (by omega)
          have h2 : ¬ (f + 1) * d + j < d := by rw [Nat.succ_mul]; omega
          have h3 : (f + 1) * d + j - d = f * d + j := by rw [Nat.succ_mul]; omega
          simp [h2, h3]
          simpa using this

theorem cat3_eq {n d x y z : ℕ} {h : ℕ → Tensor K} (hn : 0 < n) (hs : ∀ i < n, (h i).shape = [x, y, z, d]) :
    ∃ t, cat 3 ((List.range n).map h) = some t ∧ t.shape = [x, y, z, n * d] ∧
      ∀ a b c f j, f < n → j < d → t.get [a, b, c, f * d + j] = (h f).get [a, b, c, j] := by
  obtain ⟨n, rfl⟩ : ∃ k, n = k + 1 := ⟨n - 1, by omega⟩
  have e : (List.range (n + 1)).map h = h 0 :: ((List.range n).map fun i => h (i + 1)) := by
    rw [List.range_succ_eq_map]; simp [Function.comp_def]
  have hsum : (((List.range (n + 1)).map h).map fun u => u.shape.getD 3 0).sum = (n + 1) * d := by
    have : (((List.range (n + 1)).map h).map fun u => u.shape.getD 3 0) = List.replicate (n + 1) d := by
      rw [List.map_map, List.eq_replicate_iff]
      refine ⟨by simp, ?_⟩
      intro c hc
      obtain ⟨i, hi, rfl⟩ := List.mem_map.1 hc
      simp [hs i (List.mem_range.1 hi)]
    rw [this]; simp
  refine ⟨⟨[x, y, z, (n + 1) * d], catGet 3 (h 0) ((List.range n).map fun i => h (i + 1))⟩, ?_, rfl, ?_⟩
  · have hall : (((List.range n).map fun i => h (i + 1)).all
        fun u => u.shape.set 3 0 == (h 0).shape.set 3 0) = true := by
      rw [List.all_eq_true]
      intro u hu
      obtain ⟨i, hi, rfl⟩ := List.mem_map.1 hu
      have := List.mem_range.1 hi
      rw [hs (i + 1) (by omega), hs 0 (by omega)]
      simp
    rw [e] at hsum ⊢
    unfold cat
    simp only [hsum]
    rw [if_pos ⟨by rw [hs 0 (by omega)]; simp, hall⟩, hs 0 (by omega)]
    rfl
  · intro a b c f j hf hj
    exact catGet_last (fun i hi => hs i (by omega)) a b c f j (by omega) hj

/-- The weights have the shapes Keras gives them, and the layer has biases. -/
structure KMha.WF (p : KMha K) (cq ck cv : ℕ) : Prop where
  heads : 0 < p.heads
  out : 0 < p.out
  bias : p.useBias = true
  qW : p.qW.shape = [cq, p.heads, p.keyDim]
  kW : p.kW.shape = [ck, p.heads, p.keyDim]
  vW : p.vW.shape = [cv, p.heads, p.valueDim]
  oW : p.oW.shape = [p.heads, p.valueDim, p.out]
  qB : ∃ b, p.qB = some b ∧ b.shape = [p.heads, p.keyDim]
  kB : ∃ b, p.kB = some b ∧ b.shape = [p.heads, p.keyDim]
  vB : ∃ b, p.vB = some b ∧ b.shape = [p.heads, p.valueDim]
  oB : ∃ b, p.oB = some b ∧ b.shape = [p.out]

theorem projectOut_spec [Field K] {p : KMha K} {cq ck cv : ℕ} (hp : p.WF cq ck cv) {x : Tensor K} {n m l : ℕ}
    (hx : x.shape = [n, m, l, p.heads * p.valueDim]) :
    ∃ r, projectOut p x = some r ∧ r.shape = [n, m, l, p.out] ∧
      ∀ a i t o, o < p.out → r.get [a, i, t, o] = (sumN p.heads fun h => sumN p.valueDim fun c =>
        x.get [a, i, t, h * p.valueDim + c] * p.oW.get [h, c, o]) + (p.oB.map fun b => b.get [o]).getD 0 := by
  obtain ⟨b, hb, sb⟩ := hp.oB
  have hres : resolve p.oW.shape.prod [some 1, some 1, none, some p.out] =
      some [1, 1, p.heads * p.valueDim, p.out] := by
    rw [hp.oW]
    have h0 : p.out ≠ 0 := hp.out.ne'
    unfold resolve
    have e1 : p.heads * (p.valueDim * p.out) % p.out = 0 := by rw [← Nat.mul_assoc]; exact Nat.mul_mod_left _ _
    have e2 : p.heads * (p.valueDim * p.out) / p.out = p.heads * p.valueDim := by
      rw [← Nat.mul_assoc]; exact Nat.mul_div_cancel _ hp.out
    simp [h0, e1, e2]
  unfold projectOut reshape
  rw [hres, Option.map_some, Option.bind_some, hb, Option.bind_some, hp.bias]
  unfold conv2d
  rw [hx]
  simp only [if_true, Option.all_some, sb, beq_self_eq_true, and_self, Option.map_some, Option.getD_some]
  refine ⟨_, rfl, rfl, ?_⟩
  intro a i t o ho
  show (sumN (p.heads * p.valueDim) fun k => _) + _ = _
  rw [sumN_mul_index]
  congr 1
  apply sumN_congr
  intro h hh
  apply sumN_congr
  intro c hc
  show x.get [a, i, t, h * p.valueDim + c] * _ = _
  congr 2
  apply unflat_eq (j := [h, c, o])
  · rw [hp.oW]
    simp [flat]
    ring
  · rw [hp.oW, valid_cons, valid_cons, valid_cons]
    exact ⟨hh, hc, ho, valid_nil⟩

/-! ### The layer -/

theorem sel_length (perm x : List ℕ) : (sel perm x).length = perm.length := List.length_map _

theorem sel_valid {l x s : List ℕ} (hx : Valid s x) (hl : ∀ a ∈ l, a < s.length) : Valid (sel l s) (sel l x) := by
  induction l with
  | nil => exact valid_nil
  | cons a l ih =>
      refine valid_cons.mpr ⟨?_, ih fun b hb => hl b (List.mem_cons_of_mem _ hb)⟩
      have ha := hl a List.mem_cons_self
      have hlen := hx.length
      show x.getD a 0 < s.getD a 0
      rw [List.getD_eq_getElem?_getD, List.getD_eq_getElem?_getD, List.getElem?_eq_getElem ha,
        List.getElem?_eq_getElem (by omega)]
      exact List.Forall₂.get hx (by omega) ha

theorem prod_pos_of {l : List ℕ} (h : ∀ d ∈ l, 0 < d) : 0 < l.prod := by
  induction l with
  | nil => simp
  | cons a l ih =>
      rw [List.prod_cons]
      exact Nat.mul_pos (h a List.mem_cons_self) (ih fun d hd => h d (List.mem_cons_of_mem _ hd))

theorem sel_congr {l x y : List ℕ} (h : ∀ a ∈ l, x.getD a 0 = y.getD a 0) : sel l x = sel l y :=
  List.map_congr_left h

theorem getD_append_left {x y : List ℕ} {a : ℕ} (h : a < x.length) : (x ++ y).getD a 0 = x.getD a 0 := by
  rw [List.getD_eq_getElem?_getD, List.getD_eq_getElem?_getD, List.getElem?_append_left h]

theorem getD_append_len {x : List ℕ} {c a : ℕ} (h : x.length = a) : (x ++ [c]).getD a 0 = c := by
  rw [List.getD_eq_getElem?_getD, ← h]
  simp

theorem replaceAt_length (axes x s : List ℕ) : (replaceAt axes x s).length = x.length := by simp [replaceAt]

theorem replaceAt_get {axes x s : List ℕ} {a : ℕ} (ha : a < x.length) :
    (replaceAt axes x s).getD a 0 = if a ∈ axes then s.getD (axes.idxOf a) 0 else x.getD a 0 := by
  unfold replaceAt
  rw [List.getD_eq_getElem?_getD, List.getElem?_eq_getElem (by simpa using ha)]
  simp

theorem replaceAt_att {axes x s : List ℕ} (hnd : axes.Nodup) (hax : ∀ a ∈ axes, a < x.length)
    (hs : s.length = axes.length) : sel axes (replaceAt axes x s) = s := by
  unfold sel
  apply List.ext_getElem
  · simp [hs]
  · intro i h1 h2
    have hi : i < axes.length := by simpa using h1
    simp only [List.getElem_map]
    rw [replaceAt_get (hax _ (List.getElem_mem hi)), if_pos (List.getElem_mem hi), hnd.idxOf_getElem i hi,
      List.getD_eq_getElem?_getD, List.getElem?_eq_getElem h2]
    rfl

/-- The shapes of one input: batch, positions, channels. -/
def shapeOf (n : ℕ) (mid : List ℕ) (c : ℕ) : List ℕ := n :: mid ++ [c]

theorem shapeOf_length (n : ℕ) (mid : List ℕ) (c : ℕ) : (shapeOf n mid c).length = mid.length + 2 := by
  simp [shapeOf]

theorem shapeOf_last (n : ℕ) (mid : List ℕ) (c : ℕ) : (shapeOf n mid c).getLastD 0 = c := by
  unfold shapeOf
  rw [List.getLastD_eq_getLast?, List.getLast?_concat]
  rfl

theorem sel_perm {axes qs ks : List ℕ} {r : ℕ} (hq : qs.length = r + 2) (x : List ℕ) (hx : x.length = r + 1) (c : ℕ)
    (hax : ∀ a ∈ axes, 1 ≤ a ∧ a ≤ r) (hk : ks.length = r + 2) :
    sel (permDims axes qs ks) (x ++ [c]) = x.getD 0 0 :: sel (iterAxes axes qs ks) x ++ sel axes x ++ [c] := by
  unfold permDims
  rw [hq]
  have h1 : sel (iterAxes axes qs ks) (x ++ [c]) = sel (iterAxes axes qs ks) x := by
    apply sel_congr
    intro a ha
    have := (mem_midAxes hq hk a).mp (List.mem_filter.mp ha).1
    exact getD_append_left (by omega)
  have h2 : sel axes (x ++ [c]) = sel axes x := by
    apply sel_congr
    intro a ha
    have := hax a ha
    exact getD_append_left (by omega)
  have h3 : (x ++ [c]).getD (r + 1) 0 = c := getD_append_len hx
  have h4 : (x ++ [c]).getD 0 0 = x.getD 0 0 := getD_append_left (by omega)
  have : sel (0 :: iterAxes axes qs ks ++ axes ++ [r + 1]) (x ++ [c]) =
      (x ++ [c]).getD 0 0 :: sel (iterAxes axes qs ks) (x ++ [c]) ++ sel axes (x ++ [c]) ++ [(x ++ [c]).getD (r + 1) 0] := by
    simp [sel]
  show sel (0 :: iterAxes axes qs ks ++ axes ++ [r + 1]) (x ++ [c]) = _
  rw [this, h1, h2, h3, h4]

/-- One input after `Permute` and `Reshape`: position and channel of the input. -/
theorem standardize_spec {axes qs ks mid : List ℕ} {r n c : ℕ} (hq : qs.length = r + 2) (hk : ks.length = r + 2)
    (hnd : axes.Nodup) (hax : ∀ a ∈ axes, 1 ≤ a ∧ a ≤ r) {t : Tensor K} (ht : t.shape = shapeOf n mid c)
    (hm : mid.length = r) :
    ∃ s, standardize (permDims axes qs ks) [(sel (iterAxes axes qs ks) (n :: mid)).prod, (sel axes (n :: mid)).prod, c] t =
        some s ∧
      s.shape = [n, (sel (iterAxes axes qs ks) (n :: mid)).prod, (sel axes (n :: mid)).prod, c] ∧
      ∀ x k, Valid (n :: mid) x → k < c →
        s.get [x.getD 0 0, flat (sel (iterAxes axes qs ks) (n :: mid)) (sel (iterAxes axes qs ks) x),
          flat (sel axes (n :: mid)) (sel axes x), k] = t.get (x ++ [k]) := by
  have hlen : t.shape.length = r + 2 := by rw [ht, shapeOf_length, hm]
  have hit : ∀ a ∈ iterAxes axes qs ks, 1 ≤ a ∧ a ≤ r := fun a ha =>
    (mem_midAxes hq hk a).mp (List.mem_filter.mp ha).1
  obtain ⟨u, h1, h2, h3⟩ := permute_get (perm := permDims axes qs ks) (t := t)
    (by rw [hlen]; exact permDims_perm hq hk hnd hax)
  have hsh : u.shape = n :: sel (iterAxes axes qs ks) (n :: mid) ++ sel axes (n :: mid) ++ [c] := by
    rw [h2, ht]
    exact sel_perm hq (n :: mid) (by simp [hm]) c hax hk
  obtain ⟨s, h4, h5, h6⟩ := standard_reshape hsh
  refine ⟨s, ?_, h5, ?_⟩
  · unfold standardize
    rw [h1, Option.bind_some, h4]
  · intro x k hx hkc
    have hxl : x.length = r + 1 := by rw [hx.length]; simp [hm]
    have h0 : x.getD 0 0 < n := by
      obtain ⟨a, y, rfl, ha, _⟩ := hx.cases_cons
      exact ha
    rw [h6 _ _ _ _ h0 (sel_valid hx fun a ha => by have := hit a ha; simp [hm]; omega)
      (sel_valid hx fun a ha => by have := hax a ha; simp [hm]; omega) hkc,
      ← sel_perm hq x hxl k hax hk, h3 (x ++ [k]) (by rw [hlen]; simp [hxl])]

theorem headOut_spec [Field K] (rs : ℕ → K) (e : K → K) {p : KMha K} {cq ck cv : ℕ} (hp : p.WF cq ck cv)
    {q k v : Tensor K} {n m tq tk h : ℕ} (hm : 0 < m) (hq : q.shape = [n, m, tq, cq]) (hk : k.shape = [n, m, tk, ck])
    (hv : v.shape = [n, m, tk, cv]) (hh : h < p.heads) :
    ∃ r, headOut rs e p m tq tk q k v h = some r ∧ r.shape = [n, m, tq, p.valueDim] ∧
      ∀ a i t c, a < n → i < m → t < tq → c < p.valueDim → r.get [a, i, t, c] = sumN tk fun s =>
        (e ((sumN p.keyDim fun j => ((sumN cq fun k' => q.get [a, i, t, k'] * p.qW.get [k', h, j]) +
            (p.qB.map fun b => b.get [h, j]).getD 0) * ((sumN ck fun k' => k.get [a, i, s, k'] * p.kW.get [k', h, j]) +
            (p.kB.map fun b => b.get [h, j]).getD 0)) * rs p.keyDim) /
          sumN tk fun s' => e ((sumN p.keyDim fun j => ((sumN cq fun k' => q.get [a, i, t, k'] * p.qW.get [k', h, j]) +
            (p.qB.map fun b => b.get [h, j]).getD 0) * ((sumN ck fun k' => k.get [a, i, s', k'] * p.kW.get [k', h, j]) +
            (p.kB.map fun b => b.get [h, j]).getD 0)) * rs p.keyDim)) *
          ((sumN cv fun k' => v.get [a, i, s, k'] * p.vW.get [k', h, c]) + (p.vB.map fun b => b.get [h, c]).getD 0) := by
  obtain ⟨bq, ebq, sbq⟩ := hp.qB
  obtain ⟨bk, ebk, sbk⟩ := hp.kB
  obtain ⟨bv, ebv, sbv⟩ := hp.vB
  obtain ⟨q1, hq1, sq1, gq1⟩ := projectHead_spec (f := rs p.keyDim) hp.qW sbq hq hh
  obtain ⟨k1, hk1, sk1, gk1⟩ := projectHead_spec (f := (1 : K)) hp.kW sbk hk hh
  obtain ⟨v1, hv1, sv1, gv1⟩ := projectHead_spec (f := (1 : K)) hp.vW sbv hv hh
  have : Nonempty (Tensor K) := ⟨q⟩
  have hit := fun i (hi : i < m) => headIter_spec e sq1 sk1 sv1 hi
  choose! f hf using hit
  obtain ⟨r, hr, sr, gr⟩ := stackIters_spec hm fun i hi => (hf i hi).2.1
  refine ⟨r, ?_, sr, ?_⟩
  · unfold headOut
    rw [hp.bias, ebq, ebk, ebv, hq1, Option.bind_some, hk1, Option.bind_some, hv1, Option.bind_some,
      mapM_some (g := f) fun i hi => (hf i (List.mem_range.1 hi)).1, Option.bind_some, hr]
  · intro a i t c ha hi ht hc
    rw [gr a i t c ha hi ht hc, (hf i hi).2.2 a t c ha ht hc]
    have hs : ∀ s, (sumN p.keyDim fun j => q1.get [a, i, t, j] * k1.get [a, i, s, j]) =
        (sumN p.keyDim fun j => ((sumN cq fun k' => q.get [a, i, t, k'] * p.qW.get [k', h, j]) +
            (p.qB.map fun b => b.get [h, j]).getD 0) * ((sumN ck fun k' => k.get [a, i, s, k'] * p.kW.get [k', h, j]) +
            (p.kB.map fun b => b.get [h, j]).getD 0)) * rs p.keyDim := by
      intro s
      rw [← sumN_mul]
      apply sumN_congr
      intro j _
      rw [gq1, gk1, ebq, ebk]
      simp only [mul_one, Option.map_some, Option.getD_some]
      have : (sumN cq fun k' => q.get [a, i, t, k'] * (p.qW.get [k', h, j] * rs p.keyDim)) =
          (sumN cq fun k' => q.get [a, i, t, k'] * p.qW.get [k', h, j]) * rs p.keyDim := by
        rw [← sumN_mul]
        apply sumN_congr
        intro _ _
        ring
      rw [this]
      ring
    simp only [hs, gv1, ebv, mul_one, Option.map_some, Option.getD_some]

set_option maxHeartbeats 1000000 in
/-- **C126**.  The nodes that replace a Keras attention layer compute multi-head attention with the weights of the
layer, over any set of attended dimensions, for inputs with any number of dimensions and any batch size. -/
theorem C126_attention [Field K] (rs : ℕ → K) (e : K → K) {p : KMha K} {cq ck cv n b₁ b₂ b₃ : ℕ} {qm km : List ℕ}
    (hp : p.WF cq ck cv) (hlen : km.length = qm.length) (hnd : p.axes.Nodup)
    (hax : ∀ a ∈ p.axes, 1 ≤ a ∧ a ≤ qm.length)
    (hiter : ∀ a, 1 ≤ a → a ≤ qm.length → a ∉ p.axes → (0 :: qm).getD a 0 = (0 :: km).getD a 0)
    (hpos : ∀ d ∈ qm, 0 < d) {q k v : Tensor K} (hq : q.shape = shapeOf n qm cq) (hk : k.shape = shapeOf n km ck)
    (hv : v.shape = shapeOf n km cv) :
    ∃ r, runKMha rs e p (shapeOf b₁ qm cq) (shapeOf b₂ km ck) (shapeOf b₃ km cv) q k v = some r ∧
      r.shape = shapeOf n qm p.out ∧
      ∀ x o, Valid (n :: qm) x → o < p.out →
        r.get (x ++ [o]) = kmhaSpec rs e p cq ck cv (p.axes.map fun a => (0 :: km).getD a 0) q k v x o := by
  have hql : (shapeOf b₁ qm cq).length = qm.length + 2 := shapeOf_length _ _ _
  have hkl : (shapeOf b₂ km ck).length = qm.length + 2 := by rw [shapeOf_length, hlen]
  set qs := shapeOf b₁ qm cq with hqs
  set ks := shapeOf b₂ km ck with hks
  set it := iterAxes p.axes qs ks with hit
  have hitm : ∀ a ∈ it, 1 ≤ a ∧ a ≤ qm.length := fun a ha => (mem_midAxes hql hkl a).mp (List.mem_filter.mp ha).1
  have hitn : ∀ a ∈ it, a ∉ p.axes := fun a ha => by simpa using (List.mem_filter.mp ha).2
  -- entries of the shapes
  have hget : ∀ (b c : ℕ) (mid : List ℕ) (a : ℕ), 1 ≤ a → a ≤ mid.length →
      (shapeOf b mid c).getD a 0 = (n :: mid).getD a 0 ∧ (n :: mid).getD a 0 = (0 :: mid).getD a 0 := by
    intro b c mid a h1 h2
    obtain ⟨a, rfl⟩ : ∃ k, a = k + 1 := ⟨a - 1, by omega⟩
    constructor
    · show ((b :: mid) ++ [c]).getD (a + 1) 0 = _
      rw [getD_append_left (by simp; omega)]
      simp
    · simp
  have eit : sel it qs = sel it (n :: qm) := sel_congr fun a ha => (hget b₁ cq qm a (hitm a ha).1 (hitm a ha).2).1
  have eitk : sel it (n :: km) = sel it (n :: qm) := by
    apply sel_congr
    intro a ha
    rw [(hget 0 0 km a (hitm a ha).1 (by rw [hlen]; exact (hitm a ha).2)).2,
      (hget 0 0 qm a (hitm a ha).1 (hitm a ha).2).2]
    exact (hiter a (hitm a ha).1 (hitm a ha).2 (hitn a ha)).symm
  have eaq : sel p.axes qs = sel p.axes (n :: qm) := sel_congr fun a ha => (hget b₁ cq qm a (hax a ha).1 (hax a ha).2).1
  have eak : sel p.axes ks = sel p.axes (n :: km) :=
    sel_congr fun a ha => (hget b₂ ck km a (hax a ha).1 (by rw [hlen]; exact (hax a ha).2)).1
  have eak0 : (p.axes.map fun a => (0 :: km).getD a 0) = sel p.axes (n :: km) :=
    List.map_congr_left fun a ha => ((hget 0 0 km a (hax a ha).1 (by rw [hlen]; exact (hax a ha).2)).2).symm
  have em : iterProd p.axes qs ks = (sel it (n :: qm)).prod := by
    show (sel it qs).prod = _
    rw [eit]
  have etq : attProd p.axes qs ks qs = (sel p.axes (n :: qm)).prod := by rw [attProd_eq hql hkl hnd hax, eaq]
  have etk : attProd p.axes qs ks ks = (sel p.axes (n :: km)).prod := by rw [attProd_eq hql hkl hnd hax, eak]
  have hmpos : 0 < (sel it (n :: qm)).prod := by
    apply prod_pos_of
    intro d hd
    obtain ⟨a, ha, rfl⟩ := List.mem_map.mp hd
    have hr := hitm a ha
    obtain ⟨a, rfl⟩ : ∃ k, a = k + 1 := ⟨a - 1, by omega⟩
    rw [List.getD_cons_succ, List.getD_eq_getElem?_getD, List.getElem?_eq_getElem (by omega)]
    exact hpos _ (List.getElem_mem (l := qm) (n := a) (by omega))
  obtain ⟨q1, hq1, sq1, gq1⟩ := standardize_spec hql hkl hnd hax hq rfl
  obtain ⟨k1, hk1, sk1, gk1⟩ := standardize_spec hql hkl hnd hax hk hlen
  obtain ⟨v1, hv1, sv1, gv1⟩ := standardize_spec hql hkl hnd hax hv hlen
  rw [← hit] at hq1 sq1 gq1 hk1 sk1 gk1 hv1 sv1 gv1
  rw [eitk] at hk1 sk1 gk1 hv1 sv1 gv1
  have : Nonempty (Tensor K) := ⟨q⟩
  have hheads := fun h (hh : h < p.heads) => headOut_spec rs e hp hmpos sq1 sk1 sv1 hh
  choose! f hf using hheads
  obtain ⟨c, hc, sc, gc⟩ := cat3_eq hp.heads fun h hh => (hf h hh).2.1
  obtain ⟨o1, ho1, so1, go1⟩ := projectOut_spec hp sc
  obtain ⟨o2, ho2, so2, go2⟩ := standard_reshape_back so1
  have hpp := permDims_perm hql hkl hnd hax
  have ho2l : o2.shape.length = qm.length + 2 := by
    have := hpp.length_eq
    unfold permDims at this
    rw [so2]
    simp [sel] at this ⊢
    omega
  obtain ⟨hop, hoi⟩ := outPerm_idx hpp
  have hperm : permute (outPerm (permDims p.axes qs ks)) o2 =
      some ⟨(outPerm (permDims p.axes qs ks)).map fun a => o2.shape.getD a 0, fun i =>
        o2.get ((List.range o2.shape.length).map fun a => i.getD ((outPerm (permDims p.axes qs ks)).idxOf a) 0)⟩ := by
    unfold permute
    rw [if_pos (by rw [ho2l]; exact hop)]
  refine ⟨⟨(outPerm (permDims p.axes qs ks)).map fun a => o2.shape.getD a 0, fun i =>
        o2.get ((List.range o2.shape.length).map fun a => i.getD ((outPerm (permDims p.axes qs ks)).idxOf a) 0)⟩,
    ?_, ?_, ?_⟩
  rotate_left
  · -- the shape
    show ((outPerm (permDims p.axes qs ks)).map fun a => o2.shape.getD a 0) = _
    have hsel : o2.shape = sel (permDims p.axes qs ks) (shapeOf n qm p.out) := by
      rw [so2]
      exact (sel_perm hql (n :: qm) (by simp) p.out hax hkl).symm
    rw [hsel]
    unfold outPerm
    rw [List.map_map]
    have hpl : (permDims p.axes qs ks).length = qm.length + 2 := by simpa using hpp.length_eq
    rw [hpl]
    exact sel_unsel hpp (by simp [shapeOf])
  · intro x o hx ho
    show o2.get _ = _
    rw [ho2l, hoi, sel_perm hql x (by rw [hx.length]; simp) o hax hkl]
    have h0 : x.getD 0 0 < n := by
      obtain ⟨a, y, rfl, ha, _⟩ := hx.cases_cons
      exact ha
    have hxl : x.length = qm.length + 1 := by rw [hx.length]; simp
    have hvi : Valid (sel it (n :: qm)) (sel it x) := sel_valid hx fun a ha => by have := hitm a ha; simp; omega
    have hva : Valid (sel p.axes (n :: qm)) (sel p.axes x) := sel_valid hx fun a ha => by have := hax a ha; simp; omega
    rw [go2 _ _ _ _ h0 hvi hva ho, go1 _ _ _ _ ho]
    unfold kmhaSpec
    congr 1
    apply sumN_congr
    intro h hh
    apply sumN_congr
    intro c' hc'
    rw [gc _ _ _ _ _ hh hc', (hf h hh).2.2 _ _ _ _ h0 (flat_lt hvi) (flat_lt hva) hc']
    congr 1
    rw [eak0]
    -- the key positions
    have hz : ∀ s, Valid (sel p.axes (n :: km)) s → Valid (n :: km) (replaceAt p.axes x s) ∧
        (replaceAt p.axes x s).getD 0 0 = x.getD 0 0 ∧ sel it (replaceAt p.axes x s) = sel it x ∧
        sel p.axes (replaceAt p.axes x s) = s := by
      intro s hs
      have hsl : s.length = p.axes.length := by rw [hs.length, sel_length]
      have h0a : (0 : ℕ) ∉ p.axes := fun h => by have := (hax 0 h).1; omega
      refine ⟨?_, ?_, ?_, ?_⟩
      · unfold Valid
        rw [List.forall₂_iff_get]
        refine ⟨by rw [replaceAt_length, hxl]; simp [hlen], ?_⟩
        intro i h1 h2
        rw [replaceAt_length] at h1
        have e1 : (replaceAt p.axes x s).get ⟨i, by rw [replaceAt_length]; exact h1⟩ = (replaceAt p.axes x s).getD i 0 := by
          rw [List.getD_eq_getElem?_getD, List.getElem?_eq_getElem (by rw [replaceAt_length]; exact h1)]
          rfl
        have e2 : (n :: km).get ⟨i, h2⟩ = (n :: km).getD i 0 := by
          rw [List.getD_eq_getElem?_getD, List.getElem?_eq_getElem h2]
          rfl
        rw [e1, e2, replaceAt_get h1]
        by_cases hia : i ∈ p.axes
        · rw [if_pos hia]
          have hidx : p.axes.idxOf i < p.axes.length := List.idxOf_lt_length_iff.mpr hia
          have := (List.forall₂_iff_get.mp hs).2 (p.axes.idxOf i) (by rw [hsl]; exact hidx) (by rw [sel_length]; exact hidx)
          rw [List.getD_eq_getElem?_getD, List.getElem?_eq_getElem (by rw [hsl]; exact hidx)]
          simp only [sel, List.get_eq_getElem, List.getElem_map, List.getElem_idxOf] at this
          exact this
        · rw [if_neg hia]
          have hxi : x.getD i 0 < (n :: qm).getD i 0 := by
            have := (List.forall₂_iff_get.mp hx).2 i h1 (by rw [hxl] at h1; simpa using h1)
            rw [List.getD_eq_getElem?_getD, List.getElem?_eq_getElem h1, List.getD_eq_getElem?_getD,
              List.getElem?_eq_getElem (by rw [hxl] at h1; simpa using h1)]
            exact this
          rcases Nat.eq_zero_or_pos i with rfl | hi
          · simpa using hxi
          · rw [(hget 0 0 km i hi (by rw [hlen]; omega)).2, ← hiter i hi (by omega) hia,
              ← (hget 0 0 qm i hi (by omega)).2]
            exact hxi
      · rw [replaceAt_get (by omega), if_neg h0a]
      · apply sel_congr
        intro a ha
        rw [replaceAt_get (by have := hitm a ha; omega), if_neg (hitn a ha)]
      · exact replaceAt_att hnd (fun a ha => by have := hax a ha; omega) hsl
    have hqp : ∀ j, ((sumN cq fun k' => q1.get [x.getD 0 0, flat (sel it (n :: qm)) (sel it x),
          flat (sel p.axes (n :: qm)) (sel p.axes x), k'] * p.qW.get [k', h, j]) +
          (p.qB.map fun b => b.get [h, j]).getD 0) = kproj p.qW p.qB cq h j q x := by
      intro j
      unfold kproj
      congr 1
      apply sumN_congr
      intro k' hk'
      rw [gq1 x k' hx hk']
    have hkp : ∀ j s, Valid (sel p.axes (n :: km)) s →
        ((sumN ck fun k' => k1.get [x.getD 0 0, flat (sel it (n :: qm)) (sel it x),
          flat (sel p.axes (n :: km)) s, k'] * p.kW.get [k', h, j]) +
          (p.kB.map fun b => b.get [h, j]).getD 0) = kproj p.kW p.kB ck h j k (replaceAt p.axes x s) := by
      intro j s hs
      obtain ⟨z1, z2, z3, z4⟩ := hz s hs
      unfold kproj
      congr 1
      apply sumN_congr
      intro k' hk'
      rw [← gk1 _ k' z1 hk', z2, z3, z4]
    have hvp : ∀ j s, Valid (sel p.axes (n :: km)) s →
        ((sumN cv fun k' => v1.get [x.getD 0 0, flat (sel it (n :: qm)) (sel it x),
          flat (sel p.axes (n :: km)) s, k'] * p.vW.get [k', h, j]) +
          (p.vB.map fun b => b.get [h, j]).getD 0) = kproj p.vW p.vB cv h j v (replaceAt p.axes x s) := by
      intro j s hs
      obtain ⟨z1, z2, z3, z4⟩ := hz s hs
      unfold kproj
      congr 1
      apply sumN_congr
      intro k' hk'
      rw [← gv1 _ k' z1 hk', z2, z3, z4]
    simp only [hqp]
    rw [sumN_flat, sumN_flat]
    have hscore : ∀ s, Valid (sel p.axes (n :: km)) s →
        e ((sumN p.keyDim fun j => kproj p.qW p.qB cq h j q x *
          ((sumN ck fun k' => k1.get [x.getD 0 0, flat (sel it (n :: qm)) (sel it x),
            flat (sel p.axes (n :: km)) s, k'] * p.kW.get [k', h, j]) +
            (p.kB.map fun b => b.get [h, j]).getD 0)) * rs p.keyDim) =
        e ((sumN p.keyDim fun j => kproj p.qW p.qB cq h j q x *
          kproj p.kW p.kB ck h j k (replaceAt p.axes x s)) * rs p.keyDim) := by
      intro s hs
      congr 2
      apply sumN_congr
      intro j _
      rw [hkp j s hs]
    rw [sumIdx_congr hscore]
    apply sumIdx_congr
    intro s hs
    rw [hscore s hs, hvp c' s hs]
  · unfold runKMha
    dsimp only
    rw [em, etq, etk]
    have l1 : qs.getLastD 0 = cq := shapeOf_last _ _ _
    have l2 : ks.getLastD 0 = ck := shapeOf_last _ _ _
    have l3 : (shapeOf b₃ km cv).getLastD 0 = cv := shapeOf_last _ _ _
    rw [l1, l2, l3, hq1, Option.bind_some, hk1, Option.bind_some, hv1, Option.bind_some,
      mapM_some (g := f) fun h hh => (hf h (List.mem_range.1 hh)).1, Option.bind_some, hc, Option.bind_some, ho1,
      Option.bind_some]
    have hdims : ((permDims p.axes qs ks).drop 1).dropLast.map (fun a => qs.getD a 0) ++ [p.out] =
        sel it (n :: qm) ++ sel p.axes (n :: qm) ++ [p.out] := by
      rw [permDims_inner, ← hit, ← eit, ← eaq, List.map_append]
      rfl
    rw [hdims, ho2, Option.bind_some, hperm]

/-! ### Calls -/

/-- **C126**.  Which tensor becomes query, key and value: the positions of the sources in the model decide.  With two
inputs the roles are right exactly if the query is not computed after the value in the order of the model's nodes, with
three if query, value and key come in this order. -/
theorem C126_roles_iff (q v k : ℕ) :
    (kConnect (kInEdges [q, v]) = some (q, v, v) ↔ q ≤ v) ∧
    (kConnect (kInEdges [q, v, k]) = some (q, k, v) ↔ q ≤ v ∧ v ≤ k) := by
  constructor
  · unfold kInEdges
    simp only [List.insertionSort, List.foldr, List.orderedInsert]
    split
    · simp [kConnect, *]
    · simp only [kConnect, Option.some_inj, Prod.mk.injEq]
      omega
  · unfold kInEdges
    simp only [List.insertionSort, List.foldr, List.orderedInsert]
    split_ifs <;> simp only [List.orderedInsert] <;> split_ifs <;>
      simp only [kConnect, Option.some_inj, Prod.mk.injEq] <;>
      first | omega | (simp only [and_self, true_iff]; omega)

/-- **C126** (calls).  A call with two tensors, of which the query comes first in the order of the nodes, or with three
in the order query, value, key (self-attention included), computes attention of these tensors. -/
theorem C126_call_partial [Field K] (rs : ℕ → K) (e : K → K) {p : KMha K} {cq ck cv n b₁ b₂ b₃ : ℕ} {qm km : List ℕ}
    (hp : p.WF cq ck cv) (hlen : km.length = qm.length) (hnd : p.axes.Nodup)
    (hax : ∀ a ∈ p.axes, 1 ≤ a ∧ a ≤ qm.length)
    (hiter : ∀ a, 1 ≤ a → a ≤ qm.length → a ∉ p.axes → (0 :: qm).getD a 0 = (0 :: km).getD a 0)
    (hpos : ∀ d ∈ qm, 0 < d) {val : ℕ → Tensor K} {q v k : ℕ} (hq : (val q).shape = shapeOf n qm cq)
    (hk : (val k).shape = shapeOf n km ck) (hv : (val v).shape = shapeOf n km cv) {args : List ℕ}
    (hargs : (args = [q, v] ∧ k = v ∧ q ≤ v) ∨ (args = [q, v, k] ∧ q ≤ v ∧ v ≤ k)) :
    ∃ r, kmhaCall rs e p (shapeOf b₁ qm cq) (shapeOf b₂ km ck) (shapeOf b₃ km cv) val args = some r ∧
      r.shape = shapeOf n qm p.out ∧
      ∀ x o, Valid (n :: qm) x → o < p.out → r.get (x ++ [o]) =
        kmhaSpec rs e p cq ck cv (p.axes.map fun a => (0 :: km).getD a 0) (val q) (val k) (val v) x o := by
  obtain ⟨r, h1, h2, h3⟩ := C126_attention rs e (b₁ := b₁) (b₂ := b₂) (b₃ := b₃) hp hlen hnd hax hiter hpos hq hk hv
  refine ⟨r, ?_, h2, h3⟩
  unfold kmhaCall
  rcases hargs with ⟨rfl, rfl, h⟩ | ⟨rfl, h⟩
  · rw [((C126_roles_iff q k 0).1).mpr h, Option.bind_some]
    exact h1
  · rw [((C126_roles_iff q v k).2).mpr h, Option.bind_some]
    exact h1

/-- A layer with one head of size one, all weights one and all biases zero. -/
def oneLayer : KMha ℚ where
  heads := 1
  keyDim := 1
  valueDim := 1
  out := 1
  axes := [1]
  useBias := true
  qW := ⟨[1, 1, 1], fun _ => 1⟩
  kW := ⟨[1, 1, 1], fun _ => 1⟩
  vW := ⟨[1, 1, 1], fun _ => 1⟩
  oW := ⟨[1, 1, 1], fun _ => 1⟩
  qB := some ⟨[1, 1], fun _ => 0⟩
  kB := some ⟨[1, 1], fun _ => 0⟩
  vB := some ⟨[1, 1], fun _ => 0⟩
  oB := some ⟨[1], fun _ => 0⟩

theorem oneLayer_wf : oneLayer.WF 1 1 1 := by
  constructor <;> decide

/-- A layer over two dimensions meets the hypotheses of the theorem. -/
example (rs : ℕ → ℚ) (e : ℚ → ℚ) (q k : Tensor ℚ) (hq : q.shape = [4, 3, 5, 2, 1]) (hk : k.shape = [4, 6, 5, 7, 1]) :
    ∃ r, runKMha rs e { oneLayer with axes := [3, 1] } [0, 3, 5, 2, 1] [0, 6, 5, 7, 1] [0, 6, 5, 7, 1] q k k = some r ∧
      r.shape = [4, 3, 5, 2, 1] := by
  obtain ⟨r, h1, h2, _⟩ := C126_attention rs e (p := { oneLayer with axes := [3, 1] }) (n := 4) (b₁ := 0) (b₂ := 0)
    (b₃ := 0) (cq := 1) (ck := 1) (cv := 1) (qm := [3, 5, 2]) (km := [6, 5, 7])
    (by constructor <;> decide) rfl (by decide) (by decide)
    (by
      intro a h1 h2 h3
      have h4 : a = 1 ∨ a = 2 ∨ a = 3 := by simp at h2; omega
      rcases h4 with rfl | rfl | rfl
      · exact absurd (by decide) h3
      · rfl
      · exact absurd (by decide) h3)
    (by decide) hq hk hk
  exact ⟨r, h1, h2⟩

/-- **C126** (violation).  If the value comes before the query in the order of the nodes, they are exchanged.  With one
key position attention is the value, 5; after the substitution it is the query, 7. -/
theorem C126_order_violated :
    kmhaSpec (fun _ => 1) (fun _ => 1) oneLayer 1 1 1 [1] (num 7) (num 5) (num 5) [0, 0] 0 = 5 ∧
      ((kmhaCall (fun _ => 1) (fun _ => 1) oneLayer [1, 1, 1] [1, 1, 1] [1, 1, 1] (fun n => if n = 0 then num 5 else num 7)
        [1, 0]).map fun r => r.get [0, 0, 0]) = some 7 := by
  decide +kernel

/-- **C126** (violation).  If the key is the query and the value is another tensor, key and value are exchanged,
whatever the order of the nodes: the two edges from one tensor come together. -/
theorem C126_key_violated (x y : ℕ) (h : x ≠ y) : kConnect (kInEdges [x, y, x]) ≠ some (x, x, y) := by
  rw [Ne, (C126_roles_iff x y x).2]
  omega

/-- **C126** (violation).  An attention mask is used as the key: with query, value and mask the layer has three
inputs, as with query, value and key. -/
theorem C126_mask_violated [Field K] (rs : ℕ → K) (e : K → K) (p : KMha K) (qs ks vs : List ℕ) (val : ℕ → Tensor K)
    (q v m : ℕ) (hqv : q ≤ v) (hvm : v ≤ m) :
    kmhaCall rs e p qs ks vs val [q, v, m] = runKMha rs e p qs ks vs (val q) (val m) (val v) := by
  unfold kmhaCall
  rw [((C126_roles_iff q v m).2).mpr ⟨hqv, hvm⟩, Option.bind_some]

/-- **C126** (rejected).  More than three inputs, for example key and mask, are an error. -/
theorem C126_four [Field K] (rs : ℕ → K) (e : K → K) (p : KMha K) (qs ks vs : List ℕ) (val : ℕ → Tensor K)
    (args : List ℕ) (h : 3 < args.length) : kmhaCall rs e p qs ks vs val args = none := by
  have hl : (kInEdges args).length = args.length := List.length_insertionSort _ _
  unfold kmhaCall
  have : kConnect (kInEdges args) = none := by
    generalize kInEdges args = l at hl
    match l, hl with
    | [], _ => rfl
    | [_], _ => rfl
    | [_, _], hl => simp at hl; omega
    | [_, _, _], hl => simp at hl; omega
    | _ :: _ :: _ :: _ :: _, _ => rfl
  rw [this]
  rfl

/-- **C126** (violation).  A layer without biases cannot be decomposed. -/
theorem C126_bias_violated [Field K] (rs : ℕ → K) (e : K → K) (p : KMha K) (qs ks vs : List ℕ) (q k v : Tensor K)
    (hh : 0 < p.heads) (hb : p.qB = none) : runKMha rs e p qs ks vs q k v = none := by
  have h1 : ∀ m tq tk (q k v : Tensor K) h, headOut rs e p m tq tk q k v h = none := by
    intro m tq tk q k v h
    unfold headOut projectHead
    rw [hb]
    cases headKernel (rs p.keyDim) p.qW h <;> simp [headBias]
  have h2 : ∀ m tq tk (q k v : Tensor K), (List.range p.heads).mapM (headOut rs e p m tq tk q k v) = none := by
    intro m tq tk q k v
    obtain ⟨n, hn⟩ : ∃ n, p.heads = n + 1 := ⟨p.heads - 1, by omega⟩
    rw [hn, List.range_succ_eq_map, List.mapM_cons, h1]
    rfl
  unfold runKMha
  simp [h2]

end MCT.Decomp
