import Verif.Pruning.Spec
import Mathlib.Algebra.BigOperators.Group.List.Lemmas
import Mathlib.Algebra.Order.BigOperators.Group.List
import Mathlib.Data.List.GetD

set_option linter.unusedSectionVars false

/-! # Lemmas about the greedy mask search -/

namespace MCT.Pruning

open MCT.PruningSpec

variable {K : Type*} [LinearOrder K] {T : Type*} [LinearOrder T]

/-- The state in which the first `k i` groups of layer `i` remain. -/
def stateOf (groups : ℕ → List (List ℕ)) (nch : ℕ → ℕ) (k : ℕ → ℕ) : Masks :=
  { simd := fun i => (List.range (groups i).length).map fun g => decide (g < k i)
    chan := fun i => (List.range (nch i)).map fun c =>
      (List.range (k i)).any fun g => decide (c ∈ (groups i).getD g []) }

/-- Change one value of a function. -/
def upd (k : ℕ → ℕ) (i v : ℕ) : ℕ → ℕ := fun j => if j = i then v else k j

theorem upd_self (k : ℕ → ℕ) (i v : ℕ) : upd k i v i = v := by simp [upd]
theorem upd_ne (k : ℕ → ℕ) {i j : ℕ} (v : ℕ) (h : j ≠ i) : upd k i v j = k j := by simp [upd, h]

theorem foldl_set_getElem? (l : List ℕ) (v : Bool) (m : List Bool) (j : ℕ) :
    (l.foldl (fun m c => m.set c v) m)[j]? = if j ∈ l ∧ j < m.length then some v else m[j]? := by
  induction l generalizing m with
  | nil => simp
  | cons a l ih =>
    rw [List.foldl_cons, ih, List.length_set]
    by_cases hj : j < m.length
    · by_cases h1 : j ∈ l
      · simp [h1, hj]
      · by_cases h2 : j = a
        · subst h2
          simp [h1, hj]
        · simp [h1, h2, List.getElem?_set_ne (Ne.symm h2)]
    · have : m[j]? = none := List.getElem?_eq_none (by omega)
      simp [hj]

theorem foldl_set_length (l : List ℕ) (v : Bool) (m : List Bool) :
    (l.foldl (fun m c => m.set c v) m).length = m.length := by
  induction l generalizing m with
  | nil => rfl
  | cons a l ih => rw [List.foldl_cons, ih, List.length_set]

theorem Masks.ext' {a b : Masks} (h1 : ∀ i, a.simd i = b.simd i) (h2 : ∀ i, a.chan i = b.chan i) : a = b := by
  cases a; cases b
  simp only [Masks.mk.injEq]
  exact ⟨funext h1, funext h2⟩

theorem allPruned_eq (groups : ℕ → List (List ℕ)) (nch : ℕ → ℕ) :
    Masks.allPruned groups nch = stateOf groups nch (fun _ => 0) := by
  apply Masks.ext'
  · intro i
    simp [Masks.allPruned, stateOf, List.map_const']
  · intro i
    simp [Masks.allPruned, stateOf, List.map_const']

theorem set_true (groups : ℕ → List (List ℕ)) (nch k : ℕ → ℕ) (i : ℕ) :
    (stateOf groups nch k).set groups i (k i) true = stateOf groups nch (upd k i (k i + 1)) := by
  apply Masks.ext'
  · intro j
    by_cases hj : j = i
    · subst hj
      simp only [Masks.set, stateOf, if_true, upd_self]
      apply List.ext_getElem (by simp)
      intro g h1 h2
      rw [List.getElem_set]
      simp only [List.length_set, List.length_map, List.length_range] at h1
      by_cases hg : k j = g
      · subst hg; simp
      · have : (g < k j ↔ g < k j + 1) := by omega
        simp [hg, this]
    · simp only [Masks.set, stateOf, if_neg hj, upd_ne k _ hj]
  · intro j
    by_cases hj : j = i
    · subst hj
      simp only [Masks.set, stateOf, if_true, upd_self]
      apply List.ext_getElem?
      intro c
      rw [foldl_set_getElem?]
      simp only [List.length_map, List.length_range, List.getElem?_map]
      by_cases hc : c < nch j
      · rw [List.getElem?_range hc]
        simp only [Option.map_some, List.range_succ, List.any_append, List.any_cons, List.any_nil, Bool.or_false]
        by_cases hm : c ∈ (groups j).getD (k j) []
        · rw [if_pos ⟨hm, hc⟩, decide_eq_true hm, Bool.or_true]
        · rw [if_neg (fun h => hm h.1), decide_eq_false hm, Bool.or_false]
      · have : (List.range (nch j))[c]? = none := List.getElem?_eq_none (by simp; omega)
        rw [if_neg (fun h => hc h.2), this]; rfl
    · simp only [Masks.set, stateOf, if_neg hj, upd_ne k _ hj]

/-- With disjoint groups, taking back the last group restores the state before it. -/
theorem set_false (groups : ℕ → List (List ℕ)) (nch k : ℕ → ℕ) (i : ℕ) (hn : (groups i).flatten.Nodup)
    (hk : k i < (groups i).length) :
    (stateOf groups nch (upd k i (k i + 1))).set groups i (k i) false = stateOf groups nch k := by
  have hdisj : ∀ g < k i, ∀ c, c ∈ (groups i).getD g [] → c ∉ (groups i).getD (k i) [] := by
    intro g hg c h1 h2
    rw [List.nodup_flatten] at hn
    have := List.pairwise_iff_getElem.mp hn.2 g (k i) (by omega) hk hg
    rw [List.getD_eq_getElem _ _ (by omega)] at h1
    rw [List.getD_eq_getElem _ _ hk] at h2
    exact this h1 h2
  apply Masks.ext'
  · intro j
    by_cases hj : j = i
    · subst hj
      simp only [Masks.set, stateOf, if_true, upd_self]
      apply List.ext_getElem (by simp)
      intro g h1 h2
      rw [List.getElem_set]
      by_cases hg : k j = g
      · subst hg; simp
      · have : (g < k j + 1 ↔ g < k j) := by omega
        simp [hg, this]
    · simp only [Masks.set, stateOf, if_neg hj, upd_ne k _ hj]
  · intro j
    by_cases hj : j = i
    · subst hj
      simp only [Masks.set, stateOf, if_true, upd_self]
      apply List.ext_getElem?
      intro c
      rw [foldl_set_getElem?]
      simp only [List.length_map, List.length_range, List.getElem?_map]
      by_cases hc : c < nch j
      · rw [List.getElem?_range hc]
        simp only [Option.map_some, List.range_succ, List.any_append, List.any_cons, List.any_nil, Bool.or_false]
        by_cases hm : c ∈ (groups j).getD (k j) []
        · rw [if_pos ⟨hm, hc⟩]
          congr 1
          symm
          rw [List.any_eq_false]
          intro g hg
          simp only [decide_eq_true_eq]
          exact fun h => hdisj g (List.mem_range.mp hg) c h hm
        · rw [if_neg (fun h => hm h.1), decide_eq_false hm, Bool.or_false]
      · have : (List.range (nch j))[c]? = none := List.getElem?_eq_none (by simp; omega)
        rw [if_neg (fun h => hc h.2), this]; rfl
    · simp only [Masks.set, stateOf, if_neg hj, upd_ne k _ hj]

theorem init_eq (N : ℕ) (groups : ℕ → List (List ℕ)) (nch : ℕ → ℕ) :
    Masks.init N groups nch = stateOf groups nch (fun i => if i < N then 1 else 0) := by
  unfold Masks.init
  rw [allPruned_eq]
  induction N with
  | zero => simp
  | succ n ih =>
    rw [List.range_succ, List.foldl_append, ih]
    simp only [List.foldl_cons, List.foldl_nil]
    have h0 : (if n < n then 1 else 0 : ℕ) = 0 := by simp
    have := set_true groups nch (fun i => if i < n then 1 else 0) n
    simp only [h0] at this
    rw [this]
    congr 1
    funext j
    unfold upd
    by_cases hj : j = n
    · subst hj; simp
    · have : (j < n + 1 ↔ j < n) := by omega
      simp [hj, this]

theorem firstPruned_eq (n k : ℕ) :
    firstPruned ((List.range n).map fun g => decide (g < k)) = if k < n then k else 0 := by
  unfold firstPruned
  by_cases h : k < n
  · rw [if_pos h]
    have : ((List.range n).map fun g => decide (g < k)).findIdx? (fun b => !b) = some k := by
      rw [List.findIdx?_eq_some_iff_getElem]
      refine ⟨by simpa using h, by simp, ?_⟩
      intro j hj
      simp [hj]
    rw [this]; rfl
  · rw [if_neg h]
    have : ((List.range n).map fun g => decide (g < k)).findIdx? (fun b => !b) = none := by
      rw [List.findIdx?_eq_none_iff]
      intro b hb
      obtain ⟨g, hg, rfl⟩ := List.mem_map.mp hb
      have := List.mem_range.mp hg
      simp; omega
    rw [this]; rfl

/-- Layer `i` still has a pruned group (beyond the first). -/
def Open (groups : ℕ → List (List ℕ)) (k : ℕ → ℕ) (i : ℕ) : Prop := k i ≠ 0 ∧ k i < (groups i).length

theorem firstPruned_state (groups : ℕ → List (List ℕ)) (nch k : ℕ → ℕ) (i : ℕ) :
    firstPruned ((stateOf groups nch k).simd i) ≠ 0 ↔ Open groups k i := by
  unfold Open stateOf
  simp only [firstPruned_eq]
  split <;> simp_all

theorem firstPruned_state_eq (groups : ℕ → List (List ℕ)) (nch k : ℕ → ℕ) (i : ℕ) (h : Open groups k i) :
    firstPruned ((stateOf groups nch k).simd i) = k i := by
  unfold stateOf
  simp only [firstPruned_eq, if_pos h.2]

/-- The candidate is an open layer with the highest score; there is none only if no layer is open. -/
theorem bestGroup_spec (N : ℕ) (groups : ℕ → List (List ℕ)) (nch k : ℕ → ℕ) (scores : ℕ → ℕ → K) :
    (bestGroup N scores (stateOf groups nch k) = none ∧ ∀ i < N, ¬ Open groups k i) ∨
    ∃ i < N, bestGroup N scores (stateOf groups nch k) = some (i, k i) ∧ Open groups k i ∧
      ∀ j < N, Open groups k j → scores j (k j) ≤ scores i (k i) := by
  have key : ∀ n, ((List.range n).foldl (bestStep scores (stateOf groups nch k)) none = none ∧
        ∀ i < n, ¬ Open groups k i) ∨
      ∃ i < n, (List.range n).foldl (bestStep scores (stateOf groups nch k)) none =
          some (scores i (k i), i, k i) ∧ Open groups k i ∧
        ∀ j < n, Open groups k j → scores j (k j) ≤ scores i (k i) := by
    intro n
    induction n with
    | zero => left; simp
    | succ n ih =>
      rw [List.range_succ, List.foldl_append]
      simp only [List.foldl_cons, List.foldl_nil]
      by_cases ho : Open groups k n
      · have hf := (firstPruned_state groups nch k n).mpr ho
        have hfe := firstPruned_state_eq groups nch k n ho
        right
        rcases ih with ⟨h1, h2⟩ | ⟨i, hi, h1, h2, h3⟩
        · refine ⟨n, by omega, ?_, ho, ?_⟩
          · rw [h1]
            unfold bestStep
            simp only [hfe, if_pos ho.1]
          · intro j hj hjo
            by_cases e : j = n
            · rw [e]
            · exact absurd hjo (h2 j (by omega))
        · by_cases hlt : scores i (k i) < scores n (k n)
          · refine ⟨n, by omega, ?_, ho, ?_⟩
            · rw [h1]
              unfold bestStep
              simp only [hfe, if_pos ho.1, if_pos hlt]
            · intro j hj hjo
              by_cases e : j = n
              · rw [e]
              · exact (h3 j (by omega) hjo).trans hlt.le
          · refine ⟨i, by omega, ?_, h2, ?_⟩
            · rw [h1]
              unfold bestStep
              simp only [hfe, if_pos ho.1, if_neg hlt]
            · intro j hj hjo
              by_cases e : j = n
              · rw [e]; exact not_lt.mp hlt
              · exact h3 j (by omega) hjo
      · have hf : ¬ firstPruned ((stateOf groups nch k).simd n) ≠ 0 :=
          fun h => ho ((firstPruned_state groups nch k n).mp h)
        have hstep : ∀ b, bestStep scores (stateOf groups nch k) b n = b := by
          intro b; unfold bestStep; simp only [if_neg hf]
        rw [hstep]
        rcases ih with ⟨h1, h2⟩ | ⟨i, hi, h1, h2, h3⟩
        · left
          refine ⟨h1, fun i hi => ?_⟩
          by_cases e : i = n
          · rw [e]; exact ho
          · exact h2 i (by omega)
        · right
          refine ⟨i, by omega, h1, h2, fun j hj hjo => ?_⟩
          by_cases e : j = n
          · rw [e] at hjo; exact absurd hjo ho
          · exact h3 j (by omega) hjo
  unfold bestGroup
  rcases key N with ⟨h1, h2⟩ | ⟨i, hi, h1, h2, h3⟩
  · left; rw [h1]; exact ⟨rfl, h2⟩
  · right; exact ⟨i, hi, by rw [h1]; rfl, h2, h3⟩

theorem hasPruned_state (N : ℕ) (groups : ℕ → List (List ℕ)) (nch k : ℕ → ℕ) :
    (stateOf groups nch k).hasPruned N = true ↔
      ∃ i < N, ∃ c < nch i, ∀ g < k i, c ∉ (groups i).getD g [] := by
  unfold Masks.hasPruned stateOf
  simp only [List.any_eq_true, List.mem_range, List.mem_map, Bool.not_eq_true', exists_exists_and_eq_and]
  constructor
  · rintro ⟨i, hi, c, hc, h⟩
    refine ⟨i, hi, c, hc, fun g hg hm => ?_⟩
    rw [List.any_eq_false] at h
    exact h g (List.mem_range.mpr hg) (decide_eq_true hm)
  · rintro ⟨i, hi, c, hc, h⟩
    refine ⟨i, hi, c, hc, ?_⟩
    rw [List.any_eq_false]
    intro g hg
    simp only [decide_eq_true_eq]
    exact h g (List.mem_range.mp hg)

/-- The numbers of kept groups in a run: at least one, at most all. -/
def InRange (N : ℕ) (groups : ℕ → List (List ℕ)) (k : ℕ → ℕ) : Prop :=
  ∀ i < N, 1 ≤ k i ∧ k i ≤ (groups i).length

theorem open_of_hasPruned {N : ℕ} {groups : ℕ → List (List ℕ)} {nch k : ℕ → ℕ}
    (hp : Partition N groups nch) (hk : InRange N groups k)
    (h : (stateOf groups nch k).hasPruned N = true) : ∃ i < N, Open groups k i := by
  obtain ⟨i, hi, c, hc, hn⟩ := (hasPruned_state N groups nch k).mp h
  refine ⟨i, hi, ?_, ?_⟩
  · have := (hk i hi).1; omega
  · by_contra hge
    have hmem : c ∈ (groups i).flatten := ((hp i hi).2.mem_iff).mpr (List.mem_range.mpr hc)
    obtain ⟨l, hl, hcl⟩ := List.mem_flatten.mp hmem
    obtain ⟨g, hg, rfl⟩ := List.mem_iff_getElem.mp hl
    apply hn g (by omega)
    rw [List.getD_eq_getElem _ _ hg]; exact hcl

/-- Number of groups still pruned. -/
def remaining (N : ℕ) (groups : ℕ → List (List ℕ)) (k : ℕ → ℕ) : ℕ :=
  ((List.range N).map fun i => (groups i).length - k i).sum

theorem remaining_upd {N : ℕ} {groups : ℕ → List (List ℕ)} {k : ℕ → ℕ} {i : ℕ} (hi : i < N)
    (ho : Open groups k i) : remaining N groups (upd k i (k i + 1)) < remaining N groups k := by
  unfold remaining
  apply List.sum_lt_sum
  · intro j _
    by_cases e : j = i
    · rw [e, upd_self]; omega
    · rw [upd_ne k _ e]
  · refine ⟨i, List.mem_range.mpr hi, ?_⟩
    rw [upd_self]
    have := ho.2; omega

theorem inRange_upd {N : ℕ} {groups : ℕ → List (List ℕ)} {k : ℕ → ℕ} {i : ℕ} (hk : InRange N groups k)
    (ho : Open groups k i) : InRange N groups (upd k i (k i + 1)) := by
  intro j hj
  by_cases e : j = i
  · rw [e, upd_self]
    have := ho.2; omega
  · rw [upd_ne k _ e]; exact hk j hj

/-- What the loop does. -/
theorem greedyLoop_spec {N : ℕ} {groups : ℕ → List (List ℕ)} {nch : ℕ → ℕ} (hp : Partition N groups nch)
    (scores : ℕ → ℕ → K) (mem : (ℕ → List Bool) → T) (target : T) (fuel : ℕ) (k : ℕ → ℕ)
    (hk : InRange N groups k) (last : Option (ℕ × ℕ)) (hfuel : remaining N groups k < fuel) :
    ∃ k' last', greedyLoop N groups scores mem target fuel (stateOf groups nch k) last =
        some (stateOf groups nch k', last') ∧ InRange N groups k' ∧
      ¬ (mem (stateOf groups nch k').chan < target ∧ (stateOf groups nch k').hasPruned N = true) ∧
      ((last' = last ∧ k' = k) ∨
        ∃ k'' i, i < N ∧ last' = some (i, k'' i) ∧ k' = upd k'' i (k'' i + 1) ∧ InRange N groups k'' ∧
          Open groups k'' i ∧ (∀ j < N, Open groups k'' j → scores j (k'' j) ≤ scores i (k'' i)) ∧
          mem (stateOf groups nch k'').chan < target) := by
  induction fuel generalizing k last with
  | zero => omega
  | succ fuel ih =>
    unfold greedyLoop
    by_cases hc : mem (stateOf groups nch k).chan < target ∧ (stateOf groups nch k).hasPruned N = true
    · rw [if_pos hc]
      obtain ⟨i0, hi0, ho0⟩ := open_of_hasPruned hp hk hc.2
      rcases bestGroup_spec N groups nch k scores with ⟨_, h2⟩ | ⟨i, hi, h1, h2, h3⟩
      · exact absurd ho0 (h2 i0 hi0)
      · rw [h1]
        simp only []
        rw [set_true]
        have hlt := remaining_upd hi h2
        obtain ⟨k', last', e1, e2, e3, e4⟩ := ih (upd k i (k i + 1)) (inRange_upd hk h2) (some (i, k i)) (by omega)
        refine ⟨k', last', e1, e2, e3, Or.inr ?_⟩
        rcases e4 with ⟨e4, e5⟩ | h
        · exact ⟨k, i, hi, e4, e5, hk, h2, h3, hc.1⟩
        · exact h
    · rw [if_neg hc]
      exact ⟨k, last, rfl, hk, hc, Or.inl ⟨rfl, rfl⟩⟩

/-- The mask of a state keeps exactly the first groups. -/
theorem keepsGroups_state (N : ℕ) (groups : ℕ → List (List ℕ)) (nch k : ℕ → ℕ) :
    KeepsGroups N groups nch (stateOf groups nch k).chan k := by
  intro i _
  refine ⟨by simp [stateOf], fun c hc => ?_⟩
  unfold Keeps stateOf
  simp only [List.getElem?_map, List.getElem?_range hc, Option.map_some, Option.some.injEq, List.any_eq_true,
    List.mem_range, decide_eq_true_eq]

/-- Enough rounds for every run. -/
def roundBound (N : ℕ) (groups : ℕ → List (List ℕ)) : ℕ := ((List.range N).map fun i => (groups i).length).sum + 1

theorem remaining_lt (N : ℕ) (groups : ℕ → List (List ℕ)) (k : ℕ → ℕ) :
    remaining N groups k < roundBound N groups := by
  unfold remaining roundBound
  have : ((List.range N).map fun i => (groups i).length - k i).sum ≤
      ((List.range N).map fun i => (groups i).length).sum :=
    List.sum_le_sum fun i _ => Nat.sub_le _ _
  omega

theorem inRange_init {N : ℕ} {groups : ℕ → List (List ℕ)} {nch : ℕ → ℕ} (hp : Partition N groups nch) :
    InRange N groups (fun i => if i < N then 1 else 0) := by
  intro i hi
  simp only [if_pos hi, le_refl, true_and]
  exact List.length_pos_iff.mpr (hp i hi).1

/-- The outcome of `computeMask`. -/
theorem computeMask_spec {N : ℕ} {groups : ℕ → List (List ℕ)} {nch : ℕ → ℕ} (hp : Partition N groups nch)
    (scores : ℕ → ℕ → K) (mem : (ℕ → List Bool) → T) (target : T) (fuel : ℕ)
    (hfuel : roundBound N groups ≤ fuel) :
    (target < mem (Masks.init N groups nch).chan ∧
      computeMask N groups nch scores mem target fuel = .error .insufficient) ∨
    (mem (Masks.init N groups nch).chan ≤ target ∧
      ∃ k, computeMask N groups nch scores mem target fuel = .ok (stateOf groups nch k) ∧
        InRange N groups k ∧ mem (stateOf groups nch k).chan ≤ target ∧
        ((stateOf groups nch k).hasPruned N = false ∨ mem (stateOf groups nch k).chan = target ∨
          ∃ i < N, Open groups k i ∧ (∀ j < N, Open groups k j → scores j (k j) ≤ scores i (k i)) ∧
            target < mem (stateOf groups nch (upd k i (k i + 1))).chan)) := by
  by_cases h0 : target < mem (Masks.init N groups nch).chan
  · left
    refine ⟨h0, ?_⟩
    unfold computeMask
    simp only [if_pos h0]
  · right
    refine ⟨not_lt.mp h0, ?_⟩
    have hlt := remaining_lt N groups (fun i => if i < N then 1 else 0)
    obtain ⟨k', last', e1, e2, e3, e4⟩ := greedyLoop_spec hp scores mem target fuel
      (fun i => if i < N then 1 else 0) (inRange_init hp) none (by omega)
    unfold computeMask
    simp only [if_neg h0]
    have e1' : greedyLoop N groups scores mem target fuel (Masks.init N groups nch) none =
        some (stateOf groups nch k', last') := by rw [init_eq]; exact e1
    simp only [e1']
    by_cases hover : target < mem (stateOf groups nch k').chan
    · rcases e4 with ⟨_, e5⟩ | ⟨k'', i, hi, e4, e5, e6, e7, e8, e9⟩
      · rw [e5, ← init_eq] at hover; exact absurd hover h0
      · refine ⟨k'', ?_, e6, e9.le, Or.inr (Or.inr ⟨i, hi, e7, e8, by rw [← e5]; exact hover⟩)⟩
        simp only [if_pos hover, e4]
        rw [e5, set_false groups nch k'' i _ e7.2]
        exact ((hp i hi).2.nodup_iff).mpr List.nodup_range
    · refine ⟨k', by simp only [if_neg hover], e2, not_lt.mp hover, ?_⟩
      by_cases hpr : (stateOf groups nch k').hasPruned N = true
      · right; left
        rcases lt_or_eq_of_le (not_lt.mp hover) with h | h
        · exact absurd ⟨h, hpr⟩ e3
        · exact h
      · left; simpa using hpr

end MCT.Pruning
