import Verif.Sens.MetricModel

/-! # The points at which the metric compares the models -/

namespace MCT.Sens

set_option linter.unusedSimpArgs false
set_option linter.unusedVariables false

variable {β : Type}

theorem npRound_lt {x y : ℚ} (h : x + 1 < y) : Quant.npRound x < Quant.npRound y := by
  have hx := Quant.npRound_sub_le x
  have hy := Quant.npRound_sub_le y
  rw [abs_le] at hx hy
  have : (Quant.npRound x : ℚ) < Quant.npRound y := by linarith [hx.2, hy.1]
  exact_mod_cast this

/-- The positions are strictly increasing and inside the list, the first is the first of the list and
the last of several is the last of the list. -/
theorem spaced_lt {n k : ℕ} (hk : k < n) {i : ℕ} (hi : i < k) :
    (Quant.npRound (((n : ℚ) - 1) / ((k : ℚ) - 1) * i)).toNat < n ∧
      0 ≤ Quant.npRound (((n : ℚ) - 1) / ((k : ℚ) - 1) * i) := by
  have hn : (1 : ℚ) ≤ n := by exact_mod_cast (by omega : 1 ≤ n)
  rcases Nat.lt_or_ge k 2 with h | h
  · have hk1 : k = 1 := by omega
    have hi0 : i = 0 := by omega
    subst hk1; subst hi0
    have : Quant.npRound (((n : ℚ) - 1) / (((1 : ℕ) : ℚ) - 1) * ((0 : ℕ) : ℚ)) = 0 := by
      have := Quant.npRound_intCast (K := ℚ) 0
      simpa using this
    rw [this]
    simp; omega
  · have hk' : (0 : ℚ) < (k : ℚ) - 1 := by
      have : (2 : ℚ) ≤ k := by exact_mod_cast h
      linarith
    have hi' : (i : ℚ) ≤ (k : ℚ) - 1 := by
      have : (i : ℚ) + 1 ≤ k := by exact_mod_cast hi
      linarith
    have h0 : 0 ≤ ((n : ℚ) - 1) / ((k : ℚ) - 1) * i := by
      apply mul_nonneg (div_nonneg (by linarith) hk'.le) (Nat.cast_nonneg _)
    have h1 : ((n : ℚ) - 1) / ((k : ℚ) - 1) * i ≤ ((n - 1 : ℤ) : ℚ) := by
      push_cast
      rw [div_mul_eq_mul_div, div_le_iff₀ hk']
      exact mul_le_mul_of_nonneg_left hi' (by linarith)
    have h2 := Quant.npRound_le_of_le h1
    have h3 := Quant.le_npRound_of_le (k := 0) (by simpa using h0)
    constructor
    · omega
    · exact h3

theorem spaced_lt_of_lt {n k : ℕ} (hk : k < n) {i j : ℕ} (hij : i < j) (hj : j < k) :
    (Quant.npRound (((n : ℚ) - 1) / ((k : ℚ) - 1) * i)).toNat <
      (Quant.npRound (((n : ℚ) - 1) / ((k : ℚ) - 1) * j)).toNat := by
  have h0 := (spaced_lt hk (i := i) (by omega)).2
  have hkk : (2 : ℚ) ≤ k := by exact_mod_cast (by omega : 2 ≤ k)
  have hk' : (0 : ℚ) < (k : ℚ) - 1 := by linarith
  have hstep : 1 < ((n : ℚ) - 1) / ((k : ℚ) - 1) := by
    rw [lt_div_iff₀ hk']
    have : (k : ℚ) < n := by exact_mod_cast hk
    linarith
  have hij' : (i : ℚ) + 1 ≤ j := by exact_mod_cast hij
  have : Quant.npRound (((n : ℚ) - 1) / ((k : ℚ) - 1) * i) <
      Quant.npRound (((n : ℚ) - 1) / ((k : ℚ) - 1) * j) := by
    apply npRound_lt
    have hs : 0 < ((n : ℚ) - 1) / ((k : ℚ) - 1) := by linarith
    have := mul_le_mul_of_nonneg_left hij' hs.le
    nlinarith
  omega

theorem sublist_of_positions (l : List β) (k : ℕ) (f : ℕ → ℕ) (hlt : ∀ i < k, f i < l.length)
    (hmono : ∀ i j, i < j → j < k → f i < f j) :
    ∃ r, (((List.range k).map f).mapM fun i => l[i]?) = some r ∧ r.Sublist l ∧ r.length = k ∧
      ∀ i < k, r[i]? = l[f i]? := by
  have hmap : ∀ m ≤ k, ∃ r, (((List.range m).map f).mapM fun i => l[i]?) = some r ∧ r.length = m ∧
      ∀ i < m, r[i]? = l[f i]? := by
    intro m
    induction m with
    | zero => intro _; exact ⟨[], rfl, rfl, by simp⟩
    | succ m ih =>
      intro hm
      obtain ⟨r, h1, h2, h3⟩ := ih (by omega)
      have hfm := hlt m (by omega)
      refine ⟨r ++ [l[f m]], ?_, by simp [h2], ?_⟩
      · rw [List.range_succ, List.map_append, List.mapM_append, h1]
        simp [List.getElem?_eq_getElem hfm]
      · intro i hi
        rcases Nat.lt_succ_iff_lt_or_eq.mp hi with h | h
        · rw [List.getElem?_append_left (by omega)]; exact h3 i h
        · subst h
          rw [List.getElem?_append_right (by omega), h2]
          simp [List.getElem?_eq_getElem hfm]
  obtain ⟨r, h1, h2, h3⟩ := hmap k le_rfl
  refine ⟨r, h1, ?_, h2, h3⟩
  rw [List.sublist_iff_exists_fin_orderEmbedding_get_eq]
  refine ⟨OrderEmbedding.ofStrictMono (fun i : Fin r.length => ⟨f i, hlt i (by have := i.2; omega)⟩) ?_, ?_⟩
  · intro a b hab
    exact hmono a b hab (by have := b.2; omega)
  · intro i
    have h := h3 i (by have := i.2; omega)
    have hf := hlt i (by have := i.2; omega)
    rw [List.getElem?_eq_getElem i.2, List.getElem?_eq_getElem hf] at h
    simp only [List.get_eq_getElem]
    exact Option.some.inj h

theorem count_lt {n : ℕ} {factor : ℚ} (h : factor < 1) (hn : 0 < n) : ⌊factor * n⌋.toNat < n := by
  have hn' : (0 : ℚ) < n := by exact_mod_cast hn
  have : ⌊factor * n⌋ < (n : ℤ) := by
    rw [Int.floor_lt]
    push_cast
    nlinarith
  omega

/-- **C106.** With a factor below 1, of `n` candidate points `⌊factor * n⌋` are used: distinct ones, in
the order of the network, the first candidate among them, and also the last one if there are at least
two.  With the factor 1 all are used. -/
theorem C106_bound (l : List β) (factor : ℚ) (h0 : 0 < factor) (h1 : factor ≤ 1) :
    ∃ r, boundPoints l factor = some r ∧ r.Sublist l ∧ r.length = ⌊factor * l.length⌋.toNat ∧
      (0 < r.length → r.head? = l.head?) ∧ (2 ≤ r.length → r.getLast? = l.getLast?) := by
  unfold boundPoints
  by_cases hf : factor < 1
  · rw [if_pos hf]
    rcases Nat.eq_zero_or_pos l.length with hl | hl
    · have : l = [] := List.length_eq_zero_iff.mp hl
      subst this
      exact ⟨[], by simp [spaced], by simp, by simp, by simp, by simp⟩
    · have hk := count_lt hf hl
      generalize ⌊factor * l.length⌋.toNat = k at hk
      obtain ⟨r, e1, e2, e3, e4⟩ := sublist_of_positions l k
        (fun i => (Quant.npRound (((l.length : ℚ) - 1) / ((k : ℚ) - 1) * i)).toNat)
        (fun i hi => (spaced_lt hk hi).1) (fun i j hij hj => spaced_lt_of_lt hk hij hj)
      refine ⟨r, by unfold spaced; exact e1, e2, e3, ?_, ?_⟩
      · intro hr
        rw [List.head?_eq_getElem?, List.head?_eq_getElem?, e4 0 (by omega)]
        have : Quant.npRound (((l.length : ℚ) - 1) / ((k : ℚ) - 1) * ((0 : ℕ) : ℚ)) = 0 := by
          have := Quant.npRound_intCast (K := ℚ) 0
          simpa using this
        rw [this]; rfl
      · intro hr
        rw [List.getLast?_eq_getElem?, List.getLast?_eq_getElem?, e3, e4 (k - 1) (by omega)]
        have hk2 : 2 ≤ k := by omega
        have : Quant.npRound (((l.length : ℚ) - 1) / ((k : ℚ) - 1) * ((k - 1 : ℕ) : ℚ)) =
            ((l.length : ℤ) - 1) := by
          have hk' : ((k : ℚ) - 1) ≠ 0 := by
            have : (2 : ℚ) ≤ k := by exact_mod_cast hk2
            linarith
          rw [Nat.cast_sub (by omega), Nat.cast_one, div_mul_cancel₀ _ hk']
          have := Quant.npRound_intCast (K := ℚ) ((l.length : ℤ) - 1)
          rw [← this]
          push_cast
          rfl
        congr 1
        simp only [this]
        omega
  · rw [if_neg hf]
    have : factor = 1 := le_antisymm h1 (not_lt.mp hf)
    subst this
    exact ⟨l, rfl, List.Sublist.refl l, by simp, fun _ => rfl, fun _ => rfl⟩

example : boundPoints [10, 11, 12, 13, 14, 15, 16, 17] (1 / 2 : ℚ) = some [10, 12, 15, 17] := by
  decide +kernel

/-- **C106.** The interest points are candidate nodes of the network, in its order and without
repetition, none of them an output; with the factor 1 they are all candidates that are not outputs. -/
theorem C106_points [DecidableEq β] (sorted : List β) (hnd : sorted.Nodup) (isIp : β → Bool)
    (outputs : List β) (factor : ℚ) (h0 : 0 < factor) (h1 : factor ≤ 1) :
    ∃ r, interestPoints sorted isIp outputs factor = some r ∧ r.Sublist sorted ∧ r.Nodup ∧
      (∀ n ∈ r, isIp n = true ∧ n ∉ outputs) ∧
      (factor = 1 → ∀ n, n ∈ r ↔ n ∈ sorted ∧ isIp n = true ∧ n ∉ outputs) := by
  obtain ⟨l, e1, e2, -⟩ := C106_bound (sorted.filter isIp) factor h0 h1
  unfold interestPoints
  rw [e1, Option.map_some]
  have hsub : (l.filter fun n => !(outputs.contains n)).Sublist sorted :=
    List.filter_sublist.trans (e2.trans List.filter_sublist)
  refine ⟨_, rfl, hsub, hnd.sublist hsub, ?_, ?_⟩
  · intro n hn
    rw [List.mem_filter] at hn
    have := e2.subset hn.1
    rw [List.mem_filter] at this
    refine ⟨this.2, ?_⟩
    simpa using hn.2
  · intro hf n
    have : l = sorted.filter isIp := by
      unfold boundPoints at e1
      rw [if_neg (by rw [hf]; exact lt_irrefl _)] at e1
      exact (Option.some.inj e1).symm
    rw [this]
    simp only [List.mem_filter, Bool.not_eq_true', List.contains_eq_mem, decide_eq_false_iff_not, and_assoc]

example : interestPoints [0, 1, 2, 3, 4, 5] (fun n => n % 2 == 1) [5] (1 : ℚ) = some [1, 3] := by
  decide +kernel

/-- **C106 violated.** The outputs are removed after the selection, and a small network can end up
without interest points: of three candidates, one of them the output, the factor 2/3 leaves one, and
1/4 leaves none. -/
theorem C106_few_violated :
    interestPoints [0, 1, 2] (fun _ => true) [2] (2 / 3 : ℚ) = some [0] ∧
      interestPoints [0, 1, 2] (fun _ => true) [2] (1 / 4 : ℚ) = some [] := by
  constructor <;> decide +kernel

theorem mapM_index [DecidableEq β] (sorted : List β) : ∀ (l : List β), (∀ n ∈ l, n ∈ sorted) →
    l.mapM (indexIn sorted) = some (l.map sorted.idxOf) := by
  intro l
  induction l with
  | nil => intro _; rfl
  | cons a l ih =>
    intro h
    rw [List.mapM_cons, ih fun n hn => h n (by simp [hn])]
    unfold indexIn
    rw [if_pos (h a (by simp))]
    rfl

/-- **C106.** The tensor compared for a point is the output of the built model for this very node: the
constructor never fails for nodes of the network, and the position it computes for a point holds this
point. -/
theorem C106_tensors [DecidableEq β] (sorted all points : List β) (ha : ∀ n ∈ all, n ∈ sorted)
    (hp : ∀ n ∈ points, n ∈ all) :
    ∃ is, tensorIndices sorted all points = some is ∧
      List.Forall₂ (fun n i => all[i]? = some n) points is := by
  unfold tensorIndices
  rw [mapM_index sorted all ha, mapM_index sorted points fun n hn => ha n (hp n hn)]
  simp only [Option.bind_some]
  rw [mapM_index]
  · refine ⟨_, rfl, ?_⟩
    rw [List.map_map, List.forall₂_map_right_iff, List.forall₂_same]
    intro n hn
    have hm : sorted.idxOf n ∈ all.map sorted.idxOf := List.mem_map_of_mem (hp n hn)
    have hlt := List.idxOf_lt_length_iff.mpr hm
    have hget := List.getElem_idxOf hlt
    simp only [Function.comp]
    generalize (all.map sorted.idxOf).idxOf (sorted.idxOf n) = i at hlt hget
    have hi : i < all.length := by simpa using hlt
    rw [List.getElem_map] at hget
    rw [List.getElem?_eq_getElem hi]
    congr 1
    exact (List.idxOf_inj (ha _ (List.getElem_mem hi))).mp hget
  · intro i hi
    obtain ⟨n, hn, e⟩ := List.mem_map.mp hi
    rw [← e]
    exact List.mem_map_of_mem (hp n hn)

example : tensorIndices [5, 6, 7, 8] [6, 7, 8] [8, 6] = some [2, 0] := by decide

end MCT.Sens
