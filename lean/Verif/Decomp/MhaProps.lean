import Verif.Decomp.MhaSpec
import Verif.Decomp.MatMulProps

/-! # The decomposed attention layer computes the layer (C108) -/

namespace MCT.Decomp

variable {K : Type}

theorem sumN_mul [Field K] (n : ℕ) (f : ℕ → K) (c : K) :
    (sumN n fun k => f k * c) = sumN n f * c := by
  unfold sumN
  induction (List.range n) with
  | nil => simp
  | cons a l ih => simp [ih, add_mul]

/-- Row-major positions of a dimension that is split in two. -/
theorem split_index {d h e : ℕ} (he : e < d) : (h * d + e) / d = h ∧ (h * d + e) % d = e := by
  have hd : 0 < d := by omega
  constructor
  · rw [Nat.add_comm, Nat.add_mul_div_right _ _ hd, Nat.div_eq_of_lt he, Nat.zero_add]
  · rw [Nat.add_comm, Nat.add_mul_mod_self_right, Nat.mod_eq_of_lt he]

theorem project_spec [Field K] {w x : Tensor K} {b : Option (Tensor K)} {o c n l : ℕ}
    (hw : w.shape = [o, c, 1]) (hb : ∀ t ∈ b, t.shape = [o]) (hx : x.shape = [n, l, c]) :
    ∃ t, project w b x = some t ∧ t.shape = [n, o, l] ∧ ∀ n' o' l', t.get [n', o', l'] =
      (sumN c fun k => w.get [o', k, 0] * x.get [n', l', k]) +
        (b.map fun t => t.get [o']).getD 0 := by
  have ht : transpose 1 2 x = some ⟨[n, c, l], fun i => x.get (swap 1 2 i)⟩ := by
    unfold transpose
    rw [hx]
    rfl
  have hb' : (b.all fun t => t.shape == [o]) = true := by
    cases b with
    | none => rfl
    | some t => simp [hb t rfl]
  refine ⟨⟨[n, o, l], fun i =>
    (sumN c fun k => w.get [i.getD 1 0, k, 0] * x.get (swap 1 2 [i.getD 0 0, k, i.getD 2 0])) +
      (b.map fun t => t.get [i.getD 1 0]).getD 0⟩, ?_, rfl, ?_⟩
  · unfold project
    rw [ht, Option.bind_some]
    unfold conv1d
    simp only [hw, hb', and_self, if_true]
  · intro n' o' l'
    rfl

/-- A channel dimension is split in heads. -/
theorem heads_split {t : Tensor K} {n h d l : ℕ} (ht : t.shape = [n, h * d, l]) :
    ∃ u, reshape (fixed [n, h, d, l]) t = some u ∧ u.shape = [n, h, d, l] ∧
      ∀ a i j k, a < n → i < h → j < d → k < l → u.get [a, i, j, k] = t.get [a, i * d + j, k] := by
  refine ⟨⟨[n, h, d, l], fun i => t.get (unflat t.shape (flat [n, h, d, l] i))⟩, ?_, rfl, ?_⟩
  · unfold reshape fixed
    rw [resolve_full]
    · rfl
    · rw [ht]; simp only [List.prod_cons, List.prod_nil]; ring
  · intro a i j k ha hi hj hk
    have hij : i * d + j < h * d := by nlinarith
    have hv : Valid t.shape [a, i * d + j, k] := by rw [ht]; simp [Valid, ha, hij, hk]
    show t.get (unflat t.shape _) = _
    rw [unflat_eq _ hv]
    rw [ht]; simp [flat]; ring

/-- The heads are put side by side. -/
theorem heads_join {t : Tensor K} {n h d l m : ℕ} (ht : t.shape = [n, l, h, d]) (hm : m = h * d) :
    ∃ u, reshape (fixed [n, l, m]) t = some u ∧ u.shape = [n, l, m] ∧
      ∀ a i c, a < n → i < l → c < m → u.get [a, i, c] = t.get [a, i, c / d, c % d] := by
  subst hm
  refine ⟨⟨[n, l, h * d], fun i => t.get (unflat t.shape (flat [n, l, h * d] i))⟩, ?_, rfl, ?_⟩
  · unfold reshape fixed
    rw [resolve_full]
    · rfl
    · rw [ht]; simp
  · intro a i c ha hi hc
    have hd : 0 < d := by
      rcases Nat.eq_zero_or_pos d with h0 | h0
      · subst h0; simp at hc
      · exact h0
    have h1 : c / d < h := by rw [Nat.div_lt_iff_lt_mul hd]; exact hc
    have hv : Valid t.shape [a, i, c / d, c % d] := by
      rw [ht]; simp [Valid, ha, hi, h1, Nat.mod_lt _ hd]
    show t.get (unflat t.shape _) = _
    rw [unflat_eq _ hv]
    rw [ht]
    have := Nat.div_add_mod c d
    simp [flat]
    nlinarith

theorem transpose23 {t : Tensor K} {n h d l : ℕ} (ht : t.shape = [n, h, d, l]) :
    ∃ u, transpose 2 3 t = some u ∧ u.shape = [n, h, l, d] ∧
      ∀ a i j k, u.get [a, i, j, k] = t.get [a, i, k, j] := by
  refine ⟨⟨[n, h, l, d], fun i => t.get (swap 2 3 i)⟩, ?_, rfl, fun _ _ _ _ => rfl⟩
  unfold transpose
  rw [ht]
  rfl

theorem transpose12 {t : Tensor K} {n h l d : ℕ} (ht : t.shape = [n, h, l, d]) :
    ∃ u, transpose 1 2 t = some u ∧ u.shape = [n, l, h, d] ∧
      ∀ a i j k, u.get [a, i, j, k] = t.get [a, j, i, k] := by
  refine ⟨⟨[n, l, h, d], fun i => t.get (swap 1 2 i)⟩, ?_, rfl, fun _ _ _ _ => rfl⟩
  unfold transpose
  rw [ht]
  rfl

theorem transpose12_3 {t : Tensor K} {n h l : ℕ} (ht : t.shape = [n, h, l]) :
    ∃ u, transpose 1 2 t = some u ∧ u.shape = [n, l, h] ∧
      ∀ a i j, u.get [a, i, j] = t.get [a, j, i] := by
  refine ⟨⟨[n, l, h], fun i => t.get (swap 1 2 i)⟩, ?_, rfl, fun _ _ _ => rfl⟩
  unfold transpose
  rw [ht]
  rfl

/-- A slice of size one. -/
def slice1 (n l m : ℕ) (t : Tensor K) (j : ℕ) : Tensor K :=
  ⟨[n, 1, l, m], fun i => t.get (i.getD 0 0 :: (i.getD 1 0 + j) :: i.drop 2)⟩

theorem split1_eq {t : Tensor K} {n h l m : ℕ} (ht : t.shape = [n, h, l, m]) :
    split1 t = some ((List.range h).map (slice1 n l m t)) := by
  unfold split1
  rw [ht]
  rfl

theorem bidx_one {n a : ℕ} (ha : a < n) : bidx [n, 1] [a, 0] = [a, 0] :=
  bidx_valid (by simp [Valid, ha])

/-- A product of matrices in slices of size one. -/
theorem matmul_slices [Field K] {x y : Tensor K} {n l d s : ℕ} (hx : x.shape = [n, 1, l, d])
    (hy : y.shape = [n, 1, d, s]) :
    ∃ r, matmul x y = some r ∧ r.shape = [n, 1, l, s] ∧ ∀ a i j, a < n → r.get [a, 0, i, j] =
      sumN d fun k => x.get [a, 0, i, k] * y.get [a, 0, k, j] := by
  obtain ⟨r, h1, h2, h3⟩ := matmul_append (x := x) (y := y) (xs := [n, 1]) (ys := [n, 1])
    (m := l) (p := d) (n := s) hx hy (bshape_self _)
  refine ⟨r, h1, h2, ?_⟩
  intro a i j ha
  have := h3 [a, 0] i j rfl
  rw [bidx_one ha] at this
  exact this

theorem attentionHead_spec [Field K] (e : K → K) {q k v : Tensor K} {n h l s d : ℕ}
    (hq : q.shape = [n, h, l, d]) (hk : k.shape = [n, h, d, s]) (hv : v.shape = [n, h, s, d])
    {i : ℕ} (hi : i < h) :
    ∃ r, attentionHead e ((List.range h).map (slice1 n l d q)) ((List.range h).map (slice1 n d s k))
        ((List.range h).map (slice1 n s d v)) i = some r ∧ r.shape = [n, 1, l, d] ∧
      ∀ a t c, a < n → r.get [a, 0, t, c] = sumN s fun j =>
        (e (sumN d fun u => q.get [a, i, t, u] * k.get [a, i, u, j]) /
          sumN s fun j' => e (sumN d fun u => q.get [a, i, t, u] * k.get [a, i, u, j'])) *
          v.get [a, i, j, c] := by
  obtain ⟨m1, h1, hs1, hg1⟩ := matmul_slices (x := slice1 n l d q i) (y := slice1 n d s k i)
    (n := n) (l := l) (d := d) (s := s) rfl rfl
  obtain ⟨m2, h2, hs2, hg2⟩ := matmul_slices (x := softmax e m1) (y := slice1 n s d v i)
    (n := n) (l := l) (d := s) (s := d) hs1 rfl
  refine ⟨m2, ?_, hs2, ?_⟩
  · unfold attentionHead
    simp [hi, h1, h2]
  · intro a t c ha
    rw [hg2 a t c ha]
    apply sumN_congr
    intro j _
    have hsm : (softmax e m1).get [a, 0, t, j] =
        e (m1.get [a, 0, t, j]) / sumN s fun j' => e (m1.get [a, 0, t, j']) := by
      show e (m1.get [a, 0, t, j]) / sumN (m1.shape.getLastD 0) _ = _
      rw [hs1]
      rfl
    have hz : ∀ j, m1.get [a, 0, t, j] =
        sumN d fun u => q.get [a, i, t, u] * k.get [a, i, u, j] := by
      intro j
      rw [hg1 a t j ha]
      apply sumN_congr
      intro u _
      show q.get [a, 0 + i, t, u] * k.get [a, 0 + i, u, j] = _
      rw [Nat.zero_add]
    rw [hsm, hz j]
    congr 1
    · congr 1
      apply sumN_congr
      intro j' _
      rw [hz j']
    · show v.get [a, 0 + i, j, c] = _
      rw [Nat.zero_add]

theorem catGet_ones {n : ℕ} {b : ℕ} {r : List ℕ} {h : ℕ → Tensor K}
    (hs : ∀ i ≤ n, (h i).shape = b :: 1 :: r) (a f : ℕ) (i : List ℕ) (hf : f ≤ n) :
    catGet 1 (h 0) ((List.range n).map fun i => h (i + 1)) (a :: f :: i) =
      (h f).get (a :: 0 :: i) := by
  induction n generalizing h f with
  | zero =>
    have : f = 0 := by omega
    subst this
    simp [catGet]
  | succ n ih =>
    have e : (List.range (n + 1)).map (fun i => h (i + 1)) =
        h 1 :: ((List.range n).map fun i => h (i + 1 + 1)) := by
      rw [List.range_succ_eq_map]; simp [Function.comp_def]
    rw [e]
    simp only [catGet, hs 0 (by omega)]
    cases f with
    | zero => simp
    | succ f =>
      have := ih (h := fun i => h (i + 1)) (fun i hi => hs (i + 1) (by omega)) f (by omega)
      simpa using this

theorem cat1_eq {n b : ℕ} {r : List ℕ} {h : ℕ → Tensor K} (hn : 0 < n)
    (hs : ∀ i < n, (h i).shape = b :: 1 :: r) :
    ∃ t, cat 1 ((List.range n).map h) = some t ∧ t.shape = b :: n :: r ∧
      ∀ a f i, f < n → t.get (a :: f :: i) = (h f).get (a :: 0 :: i) := by
  obtain ⟨n, rfl⟩ : ∃ k, n = k + 1 := ⟨n - 1, by omega⟩
  have e : (List.range (n + 1)).map h = h 0 :: ((List.range n).map fun i => h (i + 1)) := by
    rw [List.range_succ_eq_map]; simp [Function.comp_def]
  have hsum : (((List.range (n + 1)).map h).map fun u => u.shape.getD 1 0).sum = n + 1 := by
    have : (((List.range (n + 1)).map h).map fun u => u.shape.getD 1 0) =
        List.replicate (n + 1) 1 := by
      rw [List.map_map, List.eq_replicate_iff]
      refine ⟨by simp, ?_⟩
      intro c hc
      obtain ⟨i, hi, rfl⟩ := List.mem_map.1 hc
      simp [hs i (List.mem_range.1 hi)]
    rw [this]; simp
  refine ⟨⟨b :: (n + 1) :: r, catGet 1 (h 0) ((List.range n).map fun i => h (i + 1))⟩, ?_, rfl, ?_⟩
  · have hall : (((List.range n).map fun i => h (i + 1)).all
        fun u => u.shape.set 1 0 == (h 0).shape.set 1 0) = true := by
      rw [List.all_eq_true]
      intro u hu
      obtain ⟨i, hi, rfl⟩ := List.mem_map.1 hu
      have := List.mem_range.1 hi
      rw [hs (i + 1) (by omega), hs 0 (by omega)]
      simp
    rw [e] at hsum ⊢
    unfold cat
    simp only [hsum]
    rw [if_pos ⟨by rw [hs 0 (by omega)]; simp, hall⟩, hs 0 (by omega)]
    rfl
  · intro a f i hf
    exact catGet_ones (fun i hi => hs i (by omega)) a f i (by omega)

theorem third_vec {b : Tensor K} {n j : ℕ} (hb : b.shape = [3 * n]) :
    third b j = some ⟨[n], fun i => b.get ((j * n + i.getD 0 0) :: i.drop 1)⟩ := by
  unfold third
  rw [hb]
  simp

theorem third_mat {w : Tensor K} {n c j : ℕ} (hw : w.shape = [3 * n, c]) :
    third (expandLast w) j = some ⟨[n, c, 1], fun i =>
      (expandLast w).get ((j * n + i.getD 0 0) :: i.drop 1)⟩ := by
  unfold third
  have : (expandLast w).shape = [3 * n, c, 1] := by simp [expandLast, hw]
  rw [this]
  simp

/-- The weights of the layer reach the projections, those of the query scaled. -/
theorem inKernels_spec [Field K] (f : K) {p : MhaLayer K} (hp : p.WF) :
    ∃ wq wk wv, inKernels f p = some (wq, wk, wv) ∧ wq.shape = [p.embed, p.embed, 1] ∧
      wk.shape = [p.embed, p.kdim, 1] ∧ wv.shape = [p.embed, p.vdim, 1] ∧ ∀ o k,
        wq.get [o, k, 0] = (p.inProj 0 p.qW).w o k * f ∧
        wk.get [o, k, 0] = (p.inProj 1 p.kW).w o k ∧
        wv.get [o, k, 0] = (p.inProj 2 p.vW).w o k := by
  rcases hp.weights with ⟨w, hw, hs, hk, hv⟩ | ⟨hw, wq, wk, wv, h1, h2, h3, s1, s2, s3⟩
  · unfold inKernels
    simp only [hw, third_mat hs, Option.bind_some, Option.map_some]
    refine ⟨_, _, _, rfl, rfl, by rw [hk], by rw [hv], ?_⟩
    intro o k
    simp [mulScalar, expandLast, MhaLayer.inProj, hw]
  · unfold inKernels
    simp only [hw, h1, h2, h3, Option.bind_some, Option.map_some]
    refine ⟨_, _, _, rfl, by simp [expandLast, mulScalar, s1], by simp [expandLast, s2],
      by simp [expandLast, s3], ?_⟩
    intro o k
    simp [mulScalar, expandLast, MhaLayer.inProj, hw]

/-- The biases of the layer reach the projections, those of the query scaled. -/
theorem inBiases_spec [Field K] (f : K) {p : MhaLayer K} (hp : p.WF) :
    ∃ bq bk bv, inBiases f p = some (bq, bk, bv) ∧ (∀ t ∈ bq, t.shape = [p.embed]) ∧
      (∀ t ∈ bk, t.shape = [p.embed]) ∧ (∀ t ∈ bv, t.shape = [p.embed]) ∧ ∀ o,
        (bq.map fun t => t.get [o]).getD 0 = (p.inProj 0 p.qW).b o * f ∧
        (bk.map fun t => t.get [o]).getD 0 = (p.inProj 1 p.kW).b o ∧
        (bv.map fun t => t.get [o]).getD 0 = (p.inProj 2 p.vW).b o := by
  unfold inBiases
  cases hb : p.inB with
  | none =>
    refine ⟨none, none, none, rfl, by simp, by simp, by simp, ?_⟩
    intro o
    simp [MhaLayer.inProj, hb]
  | some b =>
    have hs := hp.bias b (by rw [hb]; rfl)
    simp only [third_vec hs, Option.bind_some, Option.map_some]
    refine ⟨_, _, _, rfl, ?_, ?_, ?_, ?_⟩
    · intro t ht; cases ht; rfl
    · intro t ht; cases ht; rfl
    · intro t ht; cases ht; rfl
    · intro o
      simp [mulScalar, MhaLayer.inProj, hb]

/-- The entries of a tensor of rank three. -/
def entries (t : Tensor K) (a b c : ℕ) : K := t.get [a, b, c]

/-- C108: on query, key and value of the traced shapes, the nodes that replace the layer
compute multi-head attention with the weights of the layer. -/
theorem C108_attention [Field K] (rs : ℕ → K) (e : K → K) {p : MhaLayer K} (hp : p.WF)
    (hacc : p.accepted = true) {n tq tk : ℕ} {q k v : Tensor K}
    (hq : q.shape = [n, tq, p.embed]) (hk : k.shape = [n, tk, p.kdim])
    (hv : v.shape = [n, tk, p.vdim]) :
    ∃ r, runMha rs e p [n, tq, p.embed] [n, tk, p.kdim] [n, tk, p.vdim] q k v = some r ∧
      r.shape = [n, tq, p.embed] ∧ ∀ b t o, b < n → t < tq → o < p.embed →
        r.get [b, t, o] = mhaSpec rs e p.heads (p.embed / p.heads) p.embed p.kdim p.vdim tk
          (p.inProj 0 p.qW) (p.inProj 1 p.kW) (p.inProj 2 p.vW) p.outProj
          (entries q) (entries k) (entries v) b t o := by
  set d := p.embed / p.heads with hd
  have hE : p.embed = p.heads * d := (Nat.mul_div_cancel' hp.divides).symm
  obtain ⟨wq, wk, wv, hw, sq, sk, sv, gw⟩ := inKernels_spec (rs d) hp
  obtain ⟨bq, bk, bv, hb, tbq, tbk, tbv, gb⟩ := inBiases_spec (rs d) hp
  obtain ⟨q1, hq1, sq1, gq1⟩ := project_spec sq tbq hq
  obtain ⟨k1, hk1, sk1, gk1⟩ := project_spec sk tbk hk
  obtain ⟨v1, hv1, sv1, gv1⟩ := project_spec sv tbv hv
  obtain ⟨q2, hq2, sq2, gq2⟩ := heads_split (t := q1) (h := p.heads) (d := d) (n := n) (l := tq)
    (by rw [sq1, hE])
  obtain ⟨k2, hk2, sk2, gk2⟩ := heads_split (t := k1) (h := p.heads) (d := d) (n := n) (l := tk)
    (by rw [sk1, hE])
  obtain ⟨v2, hv2, sv2, gv2⟩ := heads_split (t := v1) (h := p.heads) (d := d) (n := n) (l := tk)
    (by rw [sv1, hE])
  obtain ⟨q3, hq3, sq3, gq3⟩ := transpose23 sq2
  obtain ⟨v3, hv3, sv3, gv3⟩ := transpose23 sv2
  have : Nonempty (Tensor K) := ⟨q⟩
  have hhead := fun i (hi : i < p.heads) => attentionHead_spec e sq3 sk2 sv3 hi
  choose! hd' hh using hhead
  obtain ⟨c, hc, sc, gc⟩ := cat1_eq (n := p.heads) (b := n) (r := [tq, d]) (h := hd') hp.heads
    fun i hi => (hh i hi).2.1
  obtain ⟨c1, hc1, sc1, gc1⟩ := transpose12 sc
  obtain ⟨c2, hc2, sc2, gc2⟩ := heads_join (m := p.embed) sc1 hE
  obtain ⟨o1, ho1, so1, go1⟩ := project_spec (w := expandLast p.outW) (b := p.outB) (o := p.embed)
    (c := p.embed) (by simp [expandLast, hp.out]) hp.outBias sc2
  obtain ⟨r, hr, sr, gr⟩ := transpose12_3 so1
  have hheads : (List.range p.heads).mapM (attentionHead e ((List.range p.heads).map (slice1 n tq d q3))
      ((List.range p.heads).map (slice1 n d tk k2)) ((List.range p.heads).map (slice1 n tk d v3))) =
      some ((List.range p.heads).map hd') :=
    mapM_some fun i hi => (hh i (List.mem_range.1 hi)).1
  refine ⟨r, ?_, sr, ?_⟩
  · unfold runMha
    simp only [hacc, and_self, if_true]
    rw [← hd, hw, Option.bind_some, hb, Option.bind_some, hq1, Option.bind_some, hk1,
      Option.bind_some, hv1, Option.bind_some, hq2, Option.bind_some, hq3, Option.bind_some, hk2,
      Option.bind_some, hv2, Option.bind_some, hv3, Option.bind_some, split1_eq sq3,
      Option.bind_some, split1_eq sk2, Option.bind_some, split1_eq sv3, Option.bind_some, hheads,
      Option.bind_some, hc, Option.bind_some, hc1, Option.bind_some, hc2, Option.bind_some, ho1,
      Option.bind_some, hr]
  · intro b t o hbn ht ho
    rw [gr, go1]
    unfold mhaSpec Proj.at
    rw [← hE]
    congr 1
    apply sumN_congr
    intro c' hc'
    have hd0 : 0 < d := by
      rcases Nat.eq_zero_or_pos d with h0 | h0
      · rw [hE, h0] at hc'; simp at hc'
      · exact h0
    have hh1 : c' / d < p.heads := by rw [Nat.div_lt_iff_lt_mul hd0, ← hE]; exact hc'
    have hm1 : c' % d < d := Nat.mod_lt _ hd0
    have eo : (expandLast p.outW).get [o, c', 0] = p.outProj.w o c' := rfl
    rw [eo]
    congr 1
    rw [gc2 b t c' hbn ht hc', gc1, gc b _ [t, c' % d] hh1, (hh _ hh1).2.2 b t _ hbn]
    unfold headSpec
    -- the entries of the projected query, key and value
    have eq3 : ∀ u < d, q3.get [b, c' / d, t, u] =
        (p.inProj 0 p.qW).at p.embed (entries q b t) (c' / d * d + u) * rs d := by
      intro u hu
      rw [gq3, gq2 b _ u t hbn hh1 hu ht, gq1, (gb _).1]
      unfold Proj.at
      rw [add_mul, ← sumN_mul]
      congr 1
      apply sumN_congr
      intro k' _
      rw [(gw _ _).1]
      unfold entries
      ring
    have ek2 : ∀ u < d, ∀ j < tk, k2.get [b, c' / d, u, j] =
        (p.inProj 1 p.kW).at p.kdim (entries k b j) (c' / d * d + u) := by
      intro u hu j hj
      rw [gk2 b _ u j hbn hh1 hu hj, gk1, (gb _).2.1]
      unfold Proj.at
      congr 1
      apply sumN_congr
      intro k' _
      rw [(gw _ _).2.1]
      rfl
    have ev3 : ∀ u < d, ∀ j < tk, v3.get [b, c' / d, j, u] =
        (p.inProj 2 p.vW).at p.vdim (entries v b j) (c' / d * d + u) := by
      intro u hu j hj
      rw [gv3, gv2 b _ u j hbn hh1 hu hj, gv1, (gb _).2.2]
      unfold Proj.at
      congr 1
      apply sumN_congr
      intro k' _
      rw [(gw _ _).2.2]
      rfl
    have esc : ∀ j < tk, (sumN d fun u => q3.get [b, c' / d, t, u] * k2.get [b, c' / d, u, j]) =
        (sumN d fun u => (p.inProj 0 p.qW).at p.embed (entries q b t) (c' / d * d + u) *
          (p.inProj 1 p.kW).at p.kdim (entries k b j) (c' / d * d + u)) * rs d := by
      intro j hj
      rw [← sumN_mul]
      apply sumN_congr
      intro u hu
      rw [eq3 u hu, ek2 u hu j hj]
      ring
    have hden : (sumN tk fun j' =>
          e (sumN d fun u => q3.get [b, c' / d, t, u] * k2.get [b, c' / d, u, j'])) =
        sumN tk fun s' => e ((sumN d fun u =>
          (p.inProj 0 p.qW).at p.embed (entries q b t) (c' / d * d + u) *
          (p.inProj 1 p.kW).at p.kdim (entries k b s') (c' / d * d + u)) * rs d) := by
      apply sumN_congr
      intro j' hj'
      rw [esc j' hj']
    rw [hden]
    apply sumN_congr
    intro j hj
    rw [esc j hj, ev3 _ hm1 j hj]
    rfl

theorem allInputs_three {a b c : Arg} (hab : a ≠ b) (hac : a ≠ c) (hbc : b ≠ c) :
    allInputs [a, b, c] = [a, b, c] := by
  simp [allInputs, List.eraseDups_cons, hab.symm, hac.symm, hbc.symm]

/-- Three different inputs: their in-edges in the order in which they are computed. -/
theorem inEdges_three {a b c : Arg} (ha : a.const = false) (hb : b.const = false)
    (hc : c.const = false) (hab : a.node ≠ b.node) (hac : a.node ≠ c.node)
    (hbc : b.node ≠ c.node) :
    (inEdges [a, b, c]).map (·.1) = [a.node, b.node, c.node].insertionSort (· ≤ ·) := by
  have nab : a ≠ b := fun e => hab (by rw [e])
  have nac : a ≠ c := fun e => hac (by rw [e])
  have nbc : b ≠ c := fun e => hbc (by rw [e])
  unfold inEdges
  rw [allInputs_three nab nac nbc]
  have hf : [a, b, c].filter (fun a => !a.const) = [a, b, c] := by simp [ha, hb, hc]
  have c1 : [a, b, c].count a = 1 := by simp [List.count_cons, nab.symm, nac.symm]
  have c2 : [a, b, c].count b = 1 := by simp [List.count_cons, nab, nbc.symm]
  have c3 : [a, b, c].count c = 1 := by simp [List.count_cons, nac, nbc]
  rw [hf]
  by_cases h1 : a.node ≤ b.node <;> by_cases h2 : b.node ≤ c.node <;>
    by_cases h3 : a.node ≤ c.node <;>
    first
    | (exfalso; omega)
    | simp [List.insertionSort, List.orderedInsert, h1, h2, h3, c1, c2, c3]

/-- C108: in a call with three different tensors, the inputs reach the roles of query, key
and value exactly if they are computed in this order. -/
theorem C108_roles_iff {a b c : Arg} (ha : a.const = false) (hb : b.const = false)
    (hc : c.const = false) (hab : a.node ≠ b.node) (hac : a.node ≠ c.node)
    (hbc : b.node ≠ c.node) :
    connectMha (inEdges [a, b, c]) = some (a.node, b.node, c.node) ↔
      a.node < b.node ∧ b.node < c.node := by
  have h := inEdges_three ha hb hc hab hac hbc
  have hlen : (inEdges [a, b, c]).length = 3 := by
    have := congrArg List.length h
    rw [List.length_insertionSort] at this
    simpa using this
  obtain ⟨x, y, z, he⟩ : ∃ x y z, inEdges [a, b, c] = [x, y, z] := by
    match inEdges [a, b, c], hlen with
    | [x, y, z], _ => exact ⟨x, y, z, rfl⟩
  rw [he] at h ⊢
  simp only [List.map_cons, List.map_nil] at h
  have hs : connectMha [x, y, z] = some (x.1, y.1, z.1) := rfl
  rw [hs]
  constructor
  · intro h1
    simp only [Option.some.injEq, Prod.mk.injEq] at h1
    rw [h1.1, h1.2.1, h1.2.2] at h
    have hp : List.Pairwise (· ≤ ·) ([a.node, b.node, c.node].insertionSort (· ≤ ·)) :=
      List.pairwise_insertionSort _ _
    rw [← h] at hp
    simp at hp
    omega
  · rintro ⟨h1, h2⟩
    have : [a.node, b.node, c.node].insertionSort (· ≤ ·) = [a.node, b.node, c.node] := by
      simp [List.insertionSort, List.orderedInsert, h1.le, h2.le]
    rw [this] at h
    simp at h
    simp [h]

/-- C108: a call with three different tensors that are computed in the order query, key,
value is after the substitution multi-head attention of them. -/
theorem C108_call_partial [Field K] (rs : ℕ → K) (e : K → K) {p : MhaLayer K} (hp : p.WF)
    (hacc : p.accepted = true) {n tq tk : ℕ} {shape : ℕ → List ℕ} {val : ℕ → Tensor K}
    {a b c : Arg} (ha : a.const = false) (hb : b.const = false) (hc : c.const = false)
    (hab : a.node < b.node) (hbc : b.node < c.node)
    (hsh : ∀ i, shape i = (val i).shape)
    (hq : (val a.node).shape = [n, tq, p.embed]) (hk : (val b.node).shape = [n, tk, p.kdim])
    (hv : (val c.node).shape = [n, tk, p.vdim]) :
    ∃ r, mhaCall rs e p shape val [a, b, c] = some r ∧
      r.shape = [n, tq, p.embed] ∧ ∀ i t o, i < n → t < tq → o < p.embed →
        r.get [i, t, o] = mhaSpec rs e p.heads (p.embed / p.heads) p.embed p.kdim p.vdim tk
          (p.inProj 0 p.qW) (p.inProj 1 p.kW) (p.inProj 2 p.vW) p.outProj
          (entries (val a.node)) (entries (val b.node)) (entries (val c.node)) i t o := by
  have nab : a ≠ b := fun e => by rw [e] at hab; omega
  have nac : a ≠ c := fun e => by rw [e] at hab; omega
  have nbc : b ≠ c := fun e => by rw [e] at hbc; omega
  obtain ⟨r, h1, h2, h3⟩ := C108_attention rs e hp hacc hq hk hv
  refine ⟨r, ?_, h2, h3⟩
  unfold mhaCall
  have hs : inputShapes shape [a, b, c] = [[n, tq, p.embed], [n, tk, p.kdim], [n, tk, p.vdim]] := by
    unfold inputShapes
    rw [allInputs_three nab nac nbc]
    simp [hsh, hq, hk, hv]
  rw [hs]
  simp only
  rw [(C108_roles_iff ha hb hc (by omega) (by omega) (by omega)).2 ⟨hab, hbc⟩]
  exact h1

/-- A layer with two heads of size two and weights that differ. -/
def exLayer : MhaLayer ℚ where
  embed := 4
  heads := 2
  kdim := 1
  vdim := 3
  batchFirst := some true
  addZero := some false
  biasV := none
  inW := none
  qW := some ⟨[4, 4], fun i => (flat [4, 4] i : ℚ)⟩
  kW := some ⟨[4, 1], fun i => (flat [4, 1] i : ℚ) + 1⟩
  vW := some ⟨[4, 3], fun i => (flat [4, 3] i : ℚ) - 2⟩
  inB := some ⟨[12], fun i => (flat [12] i : ℚ)⟩
  outW := ⟨[4, 4], fun i => 1 - (flat [4, 4] i : ℚ)⟩
  outB := some ⟨[4], fun i => (flat [4] i : ℚ)⟩

/-- Not vacuous: the layer satisfies the conditions, the value depends on all inputs. -/
example : exLayer.WF ∧ exLayer.accepted = true ∧
    ((runMha (fun d => 1 / (d : ℚ)) (fun x => 1 + x * x) exLayer [1, 2, 4] [1, 2, 1] [1, 2, 3]
      ⟨[1, 2, 4], fun i => (flat [1, 2, 4] i : ℚ)⟩ ⟨[1, 2, 1], fun i => (flat [1, 2, 1] i : ℚ)⟩
      ⟨[1, 2, 3], fun i => (flat [1, 2, 3] i : ℚ)⟩).map fun r => r.get [0, 1, 2]) =
      some (mhaSpec (fun d => 1 / (d : ℚ)) (fun x => 1 + x * x) 2 2 4 1 3 2
        (exLayer.inProj 0 exLayer.qW) (exLayer.inProj 1 exLayer.kW)
        (exLayer.inProj 2 exLayer.vW) exLayer.outProj
        (fun a b c => (flat [1, 2, 4] [a, b, c] : ℚ)) (fun a b c => (flat [1, 2, 1] [a, b, c] : ℚ))
        (fun a b c => (flat [1, 2, 3] [a, b, c] : ℚ)) 0 1 2) := by
  refine ⟨⟨by decide, by decide, Or.inr ⟨rfl, _, _, _, rfl, rfl, rfl, rfl, rfl, rfl⟩, ?_, rfl, ?_⟩,
    by decide +kernel, by decide +kernel⟩
  · intro b hb; cases hb; rfl
  · intro b hb; cases hb; rfl

/-- A layer whose projections change nothing. -/
def idLayer : MhaLayer ℚ where
  embed := 1
  heads := 1
  kdim := 1
  vdim := 1
  batchFirst := some true
  addZero := some false
  biasV := none
  inW := some (ones [3, 1])
  qW := none
  kW := none
  vW := none
  inB := none
  outW := ones [1, 1]
  outB := none

/-- One number as a sequence of length one. -/
def num (x : ℚ) : Tensor ℚ := ⟨[1, 1, 1], fun _ => x⟩

/-- C108 fails when the value is computed before the query: the roles are exchanged.  With
one key position attention is the value, 5; after the substitution it is the query, 7. -/
theorem C108_order_violated :
    mhaSpec (fun _ => 1) (fun _ => 1) 1 1 1 1 1 1 (idLayer.inProj 0 none) (idLayer.inProj 1 none)
        (idLayer.inProj 2 none) idLayer.outProj (entries (num 7)) (entries (num 6))
        (entries (num 5)) 0 0 0 = 5 ∧
      ((mhaCall (fun _ => 1) (fun _ => 1) idLayer (fun _ => [1, 1, 1]) (fun n => num (n + 5))
        [⟨2, false⟩, ⟨1, false⟩, ⟨0, false⟩]).map fun r => r.get [0, 0, 0]) = some 7 := by
  decide +kernel

/-- C108 fails for self-attention: with one tensor as query, key and value (or one as key and
value) the node has fewer than three input shapes, so preparing the model fails. -/
theorem C108_self_violated [Field K] (rs : ℕ → K) (e : K → K) (p : MhaLayer K)
    (shape : ℕ → List ℕ) (val : ℕ → Tensor K) (a b : Arg) :
    mhaCall rs e p shape val [a, a, a] = none ∧ mhaCall rs e p shape val [a, b, b] = none := by
  have h : ∀ a b : Arg, (allInputs [a, b, b]).length ≠ 3 := by
    intro a b
    by_cases hab : b = a <;> simp [allInputs, List.eraseDups_cons, hab]
  have key : ∀ l : List Arg, (allInputs l).length ≠ 3 → mhaCall rs e p shape val l = none := by
    intro l hl
    unfold mhaCall
    split
    · rename_i h3
      exfalso
      apply hl
      have := congrArg List.length h3
      simpa [inputShapes] using this
    · rfl
  exact ⟨key _ (h a a), key _ (h a b)⟩

theorem eraseDups_nodup : ∀ {l : List Arg}, l.Nodup → l.eraseDups = l
  | [], _ => rfl
  | a :: l, h => by
    rw [List.nodup_cons] at h
    rw [List.eraseDups_cons, List.filter_eq_self.2, eraseDups_nodup h.2]
    intro b hb
    have : b ≠ a := fun e => h.1 (e ▸ hb)
    simpa using this

/-- C108: a call with a mask, whether a constant or a tensor of the model, is rejected. -/
theorem C108_mask [Field K] (rs : ℕ → K) (e : K → K) (p : MhaLayer K) (shape : ℕ → List ℕ)
    (val : ℕ → Tensor K) {args : List Arg} (h : args.Nodup) (h3 : 3 < args.length) :
    mhaCall rs e p shape val args = none := by
  have hd : allInputs args = args := eraseDups_nodup h
  unfold mhaCall
  split
  · rename_i h4
    exfalso
    have := congrArg List.length h4
    simp [inputShapes, hd] at this
    omega
  · rfl

/-- C108 fails for every batch size but the one of the traced model: the new nodes reshape to
the traced batch size. -/
theorem C108_batch_violated [Field K] (rs : ℕ → K) (e : K → K) {p : MhaLayer K} (hp : p.WF)
    {n n' tq : ℕ} {sk sv : List ℕ} {q k v : Tensor K} (hE : 0 < p.embed) (ht : 0 < tq)
    (hq : q.shape = [n', tq, p.embed]) (hn : n' ≠ n) :
    runMha rs e p [n, tq, p.embed] sk sv q k v = none := by
  unfold runMha
  split
  · rename_i bq tq' dq bk tk dk bv tv dv h1
    cases h1
    by_cases hc : p.accepted = true ∧ n = bk ∧ bk = bv ∧ tk = tv ∧ p.kdim = dk ∧ p.vdim = dv
    · rw [if_pos hc]
      obtain ⟨wq, wk, wv, hw, sq, -, -, -⟩ := inKernels_spec (rs (p.embed / p.heads)) hp
      obtain ⟨bq, bk, bv, hb, tbq, -, -, -⟩ := inBiases_spec (rs (p.embed / p.heads)) hp
      obtain ⟨q1, hq1, sq1, -⟩ := project_spec sq tbq hq
      have hr : reshape (fixed [n, p.heads, p.embed / p.heads, tq]) q1 = none := by
        unfold reshape
        rw [Option.map_eq_none_iff]
        unfold resolve fixed
        rw [filter_isNone_map_some]
        have : [n, p.heads, p.embed / p.heads, tq].prod ≠ q1.shape.prod := by
          rw [sq1]
          simp only [List.prod_cons, List.prod_nil, Nat.mul_one]
          rw [← Nat.mul_assoc p.heads, Nat.mul_div_cancel' hp.divides]
          intro h
          exact hn (Nat.eq_of_mul_eq_mul_right (Nat.mul_pos hE ht) h).symm
        simp only [List.length_nil, List.map_map]
        rw [if_neg]
        simpa [Function.comp_def] using this
      simp only [hw, hb, hq1, hr, Option.bind_some, Option.bind_none]
      cases project wk bk k with
      | none => rfl
      | some k1 => cases hv1 : project wv bv v <;> simp [hv1]
    · rw [if_neg hc]
  · rfl

/-- C108: a layer that the decomposition does not implement (the batch is not the first dimension, a zero is added to the
keys, or a bias is appended to keys and values) is rejected, never computed wrongly. -/
theorem C108_rejected [Field K] (rs : ℕ → K) (e : K → K) {p : MhaLayer K} (shape : ℕ → List ℕ)
    (val : ℕ → Tensor K) (args : List Arg)
    (h : p.batchFirst ≠ some true ∨ p.addZero = some true ∨ p.biasV ≠ none) :
    mhaCall rs e p shape val args = none := by
  have ha : p.accepted = false := by
    unfold MhaLayer.accepted
    rcases h with h | h | h
    · simp [h]
    · simp [h]
    · cases hb : p.biasV with
      | none => exact absurd hb h
      | some b => simp
  have hr : ∀ sq sk sv q k v, runMha rs e p sq sk sv q k v = none := by
    intro sq sk sv q k v
    unfold runMha
    split
    · rw [if_neg (by rw [ha]; simp)]
    · rfl
  unfold mhaCall
  split
  · cases connectMha (inEdges args) with
    | none => rfl
    | some r => exact hr _ _ _ _ _ _
  · rfl

/-- The three features, each on its own. -/
example : ({ idLayer with batchFirst := some false } : MhaLayer ℚ).batchFirst ≠ some true ∧
    ({ idLayer with addZero := some true } : MhaLayer ℚ).addZero = some true ∧
    ({ idLayer with biasV := some (num 1) } : MhaLayer ℚ).biasV ≠ none ∧ idLayer.accepted = true := by
  refine ⟨by decide, rfl, by simp, by decide⟩

/-- C108 fails for the usual `out, _ = mha(q, k, v)`: after the substitution the first result
is the output for the first image only. -/
theorem C108_first_violated [Field K] {r : Tensor K} {n t c : ℕ} (hr : r.shape = [n, t, c])
    (hn : 0 < n) :
    ∃ u, getitem0 r = some u ∧ u.shape = [t, c] ∧ u.shape ≠ [n, t, c] ∧
      ∀ i j, u.get [i, j] = r.get [0, i, j] := by
  refine ⟨⟨[t, c], fun i => r.get (0 :: i)⟩, ?_, rfl, by simp, fun _ _ => rfl⟩
  unfold getitem0
  rw [hr]
  simp [hn]

end MCT.Decomp
